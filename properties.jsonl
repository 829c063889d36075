{"id": "C01", "title": "Node IDs are unique and lookup by ID is exact", "statement": "After any sequence of node additions and ID lookups on one graph, every node of the graph has an ID no other node has, IDs are handed out as 0,1,2,... in order of first insertion, and looking up an ID returns exactly the node that owns it, or nothing if the ID was never handed out. Lookups never change the answer of later lookups.", "quantifier": "all finite sequences of AddNode and Node(id)/Has(id) calls, all node contents, all hash functions (including ones that collide)", "why_tests_cant": "the lookup uses a cache that is filled by earlier lookups, so the answer depends on the whole history of calls; tests only try a few histories", "anchors": ["graph.go:AddNode", "graph.go:addToAll", "graph.go:node", "graph.go:Has"]}
{"id": "C02", "title": "Removing a node does not change the meaning of other IDs", "statement": "After a node is removed from a graph, looking up the ID of any node that is still in the graph still returns that node, and looking up the removed ID returns nothing.", "quantifier": "all finite histories of AddNode, RemoveNode and Node(id) calls", "why_tests_cant": "the failure needs a particular order: look up an ID (which caches a position), remove an earlier node, look up again", "anchors": ["graph.go:RemoveNode", "graph.go:node", "collections.go:remove"]}
{"id": "C03", "title": "Adding an equal expression returns the node already there", "statement": "Adding a node that has the same structural hash as, and is judged equal to, a node already in the graph returns that existing node and does not grow the graph; adding any other (non constant) node returns the node itself and grows the graph by exactly one. Nothing already in the graph is lost or reordered by an addition.", "quantifier": "all graphs reachable by AddNode, all nodes, all (also colliding) hash functions", "why_tests_cant": "collision handling moves nodes between two tables; a test would need to craft 32-bit hash collisions and long histories", "anchors": ["graph.go:AddNode", "equalities.go:nodeEq", "node.go:Hashcode"]}
{"id": "C04", "title": "Adding a node never substitutes a different expression", "statement": "When an operation is applied to nodes, the node that is returned denotes exactly the requested expression: same operation with the same parameters on the same operands. In particular requesting two expressions that compute different functions never yields one and the same node.", "quantifier": "all graphs, all operations with all parameter values, all operands", "why_tests_cant": "needs pairs of operations whose hash inputs coincide although their parameters differ (e.g. slice bounds that agree modulo 256); nobody writes these pairs as unit tests", "anchors": ["graph.go:AddNode", "equalities.go:nodeEq", "op_tensor.go:sliceOp.WriteHash", "op_softmax.go:softmaxOp.WriteHash", "op_sparsemax.go:sparsemaxOp.WriteHash", "op_nn.go:im2colOp.WriteHash", "op.go:ApplyOp"]}
{"id": "C05", "title": "Edges and roots describe the child relation", "statement": "For a graph built by applying operations, 'v is a direct user of u' as reported by the reverse index (To, used for gradients and register allocation) holds exactly when u is an operand of v, the directed-edge queries agree with it in both directions, and the roots are exactly the nodes nobody uses (at the first time they are asked for).", "quantifier": "all graphs reachable by applying operations, all pairs of nodes", "why_tests_cant": "it is an invariant of all construction histories, including re-adding shared sub-expressions", "anchors": ["graph.go:SetEdge", "graph.go:To", "graph.go:HasEdgeFromTo", "graph.go:Edge", "graph.go:Roots", "op.go:ApplyOp"]}
{"id": "C06", "title": "Graph walk visits every reachable node exactly once", "statement": "Walking the graph from a node emits the start node first, emits every node reachable through operands exactly once, and emits nothing else; walking from several roots with one shared visited set emits the union exactly once.", "quantifier": "all finite acyclic graphs (any amount of sharing), all start nodes, all lists of roots", "why_tests_cant": "the visited set is only updated when a call returns, so correctness rests on acyclicity; the number of DAG shapes is unbounded", "anchors": ["walker.go:WalkGraph", "walker.go:walkGraph", "graph.go:walkFromRoots"]}
{"id": "C07", "title": "Node-list and node-set operations are set operations", "statement": "Add, Contains, remove, replace, reverse, Equals on node lists, and Union, Intersect, Difference, SymmetricDifference, IsSubset, Equal on node sets behave as the mathematical operations on the underlying sets/lists; Equals on lists decides equality as sets whenever both lists are duplicate free.", "quantifier": "all node lists and node sets", "why_tests_cant": "algebraic laws over all lists; tests sample a handful of lists", "anchors": ["collections.go:Nodes", "node_set.go:NodeSet"]}
{"id": "C08", "title": "Live intervals cover every use", "statement": "For every program order of a graph, the live interval computed for a node starts no later than the instruction that defines it and reaches every instruction that reads it; inputs, constants and gradients of inputs are live until the end of the program.", "quantifier": "all acyclic graphs, all topological orders, all numbers of uses", "why_tests_cant": "intervals are computed by one backward pass over an arbitrary program; soundness is a statement about all programs", "anchors": ["analysis.go:buildIntervals", "regalloc.go:interval"]}
{"id": "C09", "title": "Register allocation never destroys a value that is still needed", "statement": "In compiled programs no instruction writes a register that currently holds a value which a later instruction (or the user, for roots, inputs and gradients of inputs) still reads; two values that are alive at the same time never share a register.", "quantifier": "all acyclic graphs, all topological orders, all in-place capability declarations of operations", "why_tests_cant": "register reuse depends on global liveness; the number of graph shapes is unbounded and clobbering produces plausible wrong numbers", "anchors": ["regalloc.go:alloc", "regalloc.go:allocMutableOp", "regalloc.go:allocImmutableOp", "compile.go:addNode"]}
{"id": "C10", "title": "A tape machine run computes the expression graph", "statement": "After a successful RunAll of a freshly compiled graph every operand an instruction reads is the value of the operand's expression under the bound inputs, and the value bound to every root is the value of its expression, even though operations write in place into the memory of dead operands.", "quantifier": "all acyclic graphs, all input values, all operation semantics (pure functions of operand values)", "why_tests_cant": "end-to-end compiler correctness with memory reuse; differential tests only sample graphs", "anchors": ["compile.go:gen", "compile.go:addNode", "vm_tape.go:runall", "vm_tape_nocuda.go:execOp.exec", "regalloc.go:allocMutableOp"]}
{"id": "C11", "title": "Running a graph does not modify the user's inputs", "statement": "Unless the graph contains an explicit assignment, RunAll never changes the contents of a tensor the user bound to an input node.", "quantifier": "all acyclic graphs, all operations including those whose result shares memory with an operand, all input values", "why_tests_cant": "depends on aliasing between the result of one operation and the in-place target of a later one; such graph shapes are rarely tested and the corruption is silent", "anchors": ["op_tensor.go:reshapeOp.Do", "vm_tape_nocuda.go:execOp.exec", "regalloc.go:allocMutableOp"]}
{"id": "C12", "title": "Common-subexpression merging at compile time preserves values", "statement": "When the compiler lets one node stand for another, both denote the same value for all inputs.", "quantifier": "all graphs, all pairs of nodes merged by value numbering", "why_tests_cant": "merging is decided by a 32-bit hash alone; a unit test never builds two different expressions with equal hash", "anchors": ["analysis.go:vn", "analysis.go:analyze", "op_math.go:elemBinOp.WriteHash"]}
{"id": "C13", "title": "Failures stop the tape at the failing instruction", "statement": "If an input is not bound, or an operation returns an error, RunAll returns an error, executes nothing after the failing instruction, and all values produced before the failing instruction are as in a successful run; with no failing instruction RunAll executes the whole program exactly once in order.", "quantifier": "all programs, all positions of the failure, all input bindings", "why_tests_cant": "every possible crash point of every program", "anchors": ["vm_tape.go:RunAll", "vm_tape.go:runall", "vm_tape.go:loadArg.exec"]}
{"id": "C14", "title": "Reset makes a machine reusable", "statement": "RunAll; Reset; RunAll with unchanged inputs produces the same root values as a single RunAll, and running again without Reset does not execute any instruction a second time.", "quantifier": "all programs, all inputs, all numbers of repetitions", "why_tests_cant": "a statement about all run/reset histories including stale registers left by earlier runs", "anchors": ["vm_tape.go:Reset", "vm_tape.go:RunAll", "vm_tape.go:runall"]}
{"id": "C15", "title": "Symbolic derivative of every unary operation is the derivative", "statement": "For each differentiable elementwise unary operation, the expression the library builds for its gradient evaluates to (incoming gradient) times the true derivative of the operation, at every real point where the operation is differentiable.", "quantifier": "all differentiable unary operations in the table, all real arguments in the domain, all incoming gradients", "why_tests_cant": "quantifies over the reals; numeric gradient tests sample points and tolerate errors", "anchors": ["operatorPointwise_unary.go", "operatorPointwise_unary_const.go"]}
{"id": "C16", "title": "Symbolic derivative of every binary elementwise operation is the derivative", "statement": "For addition, subtraction, multiplication, division and power the two gradient expressions evaluate to (incoming gradient) times the partial derivatives with respect to the two operands at every point of differentiability.", "quantifier": "all binary elementwise differentiable operations, all real operand values in the domain, all incoming gradients", "why_tests_cant": "quantifies over the reals", "anchors": ["operatorPointwise_binary.go:addDiffExpr", "operatorPointwise_binary.go:subDiffExpr", "operatorPointwise_binary.go:hadamardProdDiffExpr", "operatorPointwise_binary.go:hadamardDivDiffExpr", "operatorPointwise_binary.go:hadamardPowDiffExpr"]}
{"id": "C17", "title": "Reverse-mode differentiation of a whole graph returns the partial derivatives", "statement": "For a scalar cost built from differentiable operations, the gradient expressions returned by Grad evaluate to the true partial derivatives of the cost with respect to each requested node, for every sharing structure of the graph (a node used several times gets the sum of the contributions).", "quantifier": "all acyclic graphs over the differentiable operation set, all real input values at which every operation is differentiable, all requested input nodes", "why_tests_cant": "needs induction over graph structure combined with calculus; tests check a few networks numerically", "anchors": ["differentiation.go:Backpropagate", "differentiation.go:forwardDiffAnalysis", "differentiation.go:backwardDiffAnalysis", "gorgonia.go:Grad"]}
{"id": "C18", "title": "Asking for gradients twice gives the same gradients", "statement": "Calling Grad a second time for another cost in the same graph returns the true gradients of that second cost.", "quantifier": "all graphs and all pairs of costs sharing sub-expressions", "why_tests_cant": "needs state left behind by an earlier differentiation", "anchors": ["differentiation.go:Backpropagate"]}
{"id": "C19", "title": "Numerical stabilization rewrites preserve the value", "statement": "Each rewrite applied while building a graph (log(1+a), log(1-a), exp(a)-1, 1-sigmoid, log sigmoid, log(1+exp), log1p(-sigmoid), log softmax, double negation) yields an expression with the same real value as the requested one at every point where the requested one is defined.", "quantifier": "all real operand values in the domain of the original expression, all rewrites", "why_tests_cant": "quantifies over the reals; tests compare a few floats", "anchors": ["stabilization.go"]}
{"id": "C20", "title": "Stabilization leaves other expressions alone", "statement": "Building an expression that triggers a rewrite never changes the value denoted by, or removes, any node the user already holds.", "quantifier": "all graphs in which the rewritten sub-expression has other users", "why_tests_cant": "requires the rewritten sub-expression to be shared; tests build it once", "anchors": ["stabilization.go:logStabilization", "stabilization.go:logSoftmaxStabilization"]}
{"id": "C21", "title": "Define-by-run (lisp machine) gradients accumulate over all uses", "statement": "Running the lisp machine backward over a graph leaves in every node the sum over all its users of the local derivative times the user's gradient.", "quantifier": "all acyclic graphs over the modelled operations, all values", "why_tests_cant": "depends on order of visits and on in-place accumulation; unbounded sharing structures", "anchors": ["vm_genera.go:runall", "vm_genera.go:backward", "op_tensor.go:reshapeOp.DoDiff", "op_tensor.go:concatOp.DoDiff", "operatorPointwise_unary.go:inverseSqrtDiff"]}
{"id": "C22", "title": "Lisp machine can be reset and run again", "statement": "RunAll; Reset; RunAll on a lisp machine evaluates every node again.", "quantifier": "all graphs with at least two nodes, all numbers of repetitions", "why_tests_cant": "a history property over run/reset sequences", "anchors": ["vm_genera.go:Reset", "vm_genera.go:RunAll", "vm_genera.go:runall"]}
{"id": "C23", "title": "Bitmap behaves as a finite set", "statement": "After any sequence of in-range set and clear operations IsSet(i) is true exactly when the last operation on i was a set; operations on one index never affect another; out-of-range indices are rejected. The search for a block with zeroes returns the first block that has a long enough run of zero bits.", "quantifier": "all sizes, all operation sequences, all indices", "why_tests_cant": "word-level bit arithmetic over all indices and histories", "anchors": ["bitmap.go"]}
{"id": "C24", "title": "Broadcast patterns encode exactly the requested axes", "statement": "A broadcast pattern built from two axis lists reports, per operand, exactly those axes (ascending, without duplicates).", "quantifier": "all lists of axes below the documented limit of four axes per operand, in any order and with repetitions", "why_tests_cant": "bit packing into one byte; wrong only for axis numbers tests do not use", "anchors": ["broadcast.go:NewBroadcastPattern", "broadcast.go:bc", "broadcast.go:on"]}
{"id": "C25", "title": "Broadcasting makes the two operands the same shape", "statement": "If two shapes agree on every axis except the axes requested for broadcasting, where the broadcast operand has size 1 (or lacks the axis), both returned nodes have the same shape and each element of the result equals the corresponding element of the operand with the broadcast coordinates dropped.", "quantifier": "all shapes up to the supported rank, all axis sets", "why_tests_cant": "all shapes and all axis subsets", "anchors": ["broadcast.go:Broadcast", "shape.go:calcBroadcastShape", "broadcast.go:autoBroadcastPattern", "op_tensor.go:repeatOp.InferShape"]}
{"id": "C26", "title": "Device allocator never hands out overlapping memory", "statement": "At every point of every sequence of allocations and frees the currently allocated blocks are pairwise disjoint, lie inside the reserved region, and are disjoint from the free list.", "quantifier": "all block sizes, all reserved sizes, all alloc/free histories", "why_tests_cant": "needs a specific interleaving of allocs and frees that makes the free list coalesce in the middle", "anchors": ["cuda/bfc.go:alloc", "cuda/bfc.go:free", "cuda/bfc.go:coalesce", "cuda/bfc.go:insert", "cuda/bfc.go:remove"]}
{"id": "C27", "title": "Device allocator conserves memory and keeps alignment", "statement": "Bytes allocated plus bytes on the free list always equal the reserved size; every returned address is aligned to the block size; freeing an address that is not allocated is a no-op; the free list is sorted by address.", "quantifier": "all alloc/free histories", "why_tests_cant": "invariant over all histories", "anchors": ["cuda/bfc.go:splitOrRemove", "cuda/bfc.go:align", "cuda/bfc.go:free", "cuda/bfc.go:bestFit"]}
{"id": "C28", "title": "Concurrent execution is schedule independent", "statement": "In the goroutine-per-node machine every execution, whatever the interleaving of goroutines and channel operations, that runs to completion gives every node the value of its expression.", "quantifier": "all acyclic graphs, all operand sharing, all interleavings", "why_tests_cant": "number of interleavings is exponential; the race detector and repeated runs only sample them", "anchors": ["x/vm/machine.go", "x/vm/node.go", "x/vm/pubsub.go"]}
{"id": "C29", "title": "Concurrent execution terminates without deadlock", "statement": "In the goroutine-per-node machine no reachable state is stuck before every node has emitted its result, and every execution takes a bounded number of steps.", "quantifier": "all acyclic graphs whose operations have a fixed arity equal to their number of operands, all interleavings", "why_tests_cant": "deadlock freedom is a property of all schedules", "anchors": ["x/vm/machine.go:NewMachine", "x/vm/node.go", "x/vm/pubsub.go:merge", "x/vm/pubsub.go:broadcast"]}
{"id": "C30", "title": "Gradient descent steps follow their update rule and clear the gradient", "statement": "A solver step updates every weight by its documented rule applied to the regularised, batch-averaged, clipped gradient, sets the gradient to zero, and treats scalar weights and tensor weights identically.", "quantifier": "all weights, gradients, solver options, all numbers of steps", "why_tests_cant": "equality of two code paths over all reals and all step counts; the tests use one start point", "anchors": ["solvers.go:VanillaSolver.Step", "solvers.go:Momentum.Step", "solvers.go:RMSPropSolver.Step"]}
{"id": "C31", "title": "Adam keeps exponentially weighted moments", "statement": "After t steps of the Adam solver the stored first and second moments are the exponentially weighted sums of the (processed) gradients and their squares, and the step uses the bias-corrected ratio.", "quantifier": "all step counts, all gradient sequences, all beta parameters", "why_tests_cant": "closed form over unbounded histories", "anchors": ["solvers.go:AdamSolver.Step"]}
{"id": "C32", "title": "im2col and col2im are adjoint", "statement": "For all images x and column blocks y, the inner product of im2col(x) with y equals the inner product of x with col2im(y); hence the registered gradient of im2col is its true transpose.", "quantifier": "all channel counts, image sizes, kernel sizes, paddings, strides, dilations, all contents", "why_tests_cant": "linear-algebra identity over all sizes; tests use a few kernels", "anchors": ["op_nn.go:im2colOp.f64s", "op_nn.go:col2imOp.f64s", "op_nn.go:retHW"]}
{"id": "C33", "title": "2-D convolution computes the textbook sum", "statement": "Conv2d returns at (b, l, i, j) the sum over channels and kernel positions of filter times the zero-padded, strided, dilated input.", "quantifier": "all shapes and parameters, all contents", "why_tests_cant": "index arithmetic through im2col, reshape, matmul, reshape, transpose for all sizes", "anchors": ["nn.go:Conv2d", "op_nn.go:im2colOp"]}
{"id": "C34", "title": "Max pooling returns the window maximum and routes the gradient to it", "statement": "Each output of MaxPool2D is the maximum of the input over its (padded) window, the recorded index is in range and points at a maximal element, and the gradient operation adds each output gradient to exactly that element.", "quantifier": "all shapes, kernels, strides, symmetric and explicit paddings, all contents", "why_tests_cant": "all window geometries including partially and fully padded windows", "anchors": ["op_nn.go:maxPoolOp.f64s", "op_nn.go:maxPoolDiffOp.f64s", "op_nn.go:newMaxPoolOp", "nn.go:MaxPool2D"]}
{"id": "C35", "title": "Matrix product gradients are the adjoints", "statement": "For matrix-matrix products under all four transposition flags, matrix-vector products, inner products and outer products, the gradient expressions are the adjoints of the product in each operand (pairing with any perturbation gives the directional derivative).", "quantifier": "all matrix sizes, contents, transposition flags", "why_tests_cant": "identity over all sizes and contents; flag combinations are rarely all tested", "anchors": ["operatorLinAlg.go:matMulDiffExpr", "operatorLinAlg.go:matVecMulDiffExpr", "operatorLinAlg.go:vecDotDiffExpr", "operatorLinAlg.go:outerProdDiffExpr"]}
{"id": "C36", "title": "Sparsemax is the projection on the simplex", "statement": "Every row of the output of Sparsemax is non-negative, sums to one, and is the closest point of the probability simplex to the input row; its support is a set of largest inputs.", "quantifier": "all row lengths >= 1, all real inputs, ties included", "why_tests_cant": "optimality among all points of the simplex", "anchors": ["op_sparsemax.go:float64sparseMax"]}
{"id": "C37", "title": "Batched multiplication visits every batch exactly once", "statement": "The batch counter used by batched matrix multiplication enumerates every multi-index of the outer shape exactly once, in row-major order, and then stops.", "quantifier": "all outer shapes (any number of axes) with positive sizes", "why_tests_cant": "odometer logic over all shapes", "anchors": ["operatorLinAlg.go:incrSlices", "operatorLinAlg.go:batchedMatMul"]}
{"id": "C38", "title": "Unconcat followed by Concat is the identity, and Concat's gradient splits correctly", "statement": "Splitting a tensor into n equal parts along an axis and concatenating the parts along the same axis gives the tensor back; the gradient of Concat gives every operand the slice of the gradient that corresponds to it.", "quantifier": "all sizes, axes, part counts dividing the axis, all contents", "why_tests_cant": "round trip over all shapes", "anchors": ["operations.go:Unconcat", "operations.go:Concat", "op_tensor.go:concatOp"]}
{"id": "C39", "title": "Transposition gradients undo the permutation", "statement": "The gradient of a transposition applies the inverse permutation; transposing by a permutation and then by its inverse gives the original shape and data; the default axes reverse the shape.", "quantifier": "all ranks, all permutations", "why_tests_cant": "all permutations of all ranks", "anchors": ["op_tensor.go:transposeOp", "operations.go:Transpose"]}
{"id": "C40", "title": "Reshape preserves the number of elements", "statement": "A successful Reshape has exactly as many elements as its operand; a single -1 is replaced by the unique size that makes this true, and any other request is rejected.", "quantifier": "all shapes and targets", "why_tests_cant": "arithmetic over all shapes, including zero and negative sizes", "anchors": ["operations.go:Reshape"]}
{"id": "C41", "title": "Inferred shapes are the shapes of computed values", "statement": "For elementwise, reduction, matrix, transposition, slice, concat and repeat operations, the shape inferred when the graph is built equals the shape of the value computed when it runs.", "quantifier": "all operand shapes and operation parameters for which inference succeeds", "why_tests_cant": "all shapes; a mismatch only shows at run time for unusual shapes", "anchors": ["op_math.go:elemBinOp.InferShape", "op_math.go:linAlgBinOp.InferShape", "op_reduction.go:reductionInferShape", "op_tensor.go:repeatOp.InferShape", "op_tensor.go:sliceOp.InferShape", "op_tensor.go:concatOp.InferShape"]}
{"id": "C42", "title": "Tensor contraction gradients have the axes in the right places", "statement": "For Tensordot the axis bookkeeping of the gradient (co-sorting, permutation pattern, contracted axes) produces for each operand a tensor whose axes line up with the operand.", "quantifier": "all ranks, all duplicate-free axis lists", "why_tests_cant": "permutation bookkeeping over all ranks", "anchors": ["op_math.go:tensordotOp.SymDiff", "op_math.go:tensordotOp.DoDiff", "op_tensor.go:sortUniqueIntWithImitator", "op_tensor.go:contains"]}
{"id": "C43", "title": "LogSumExp computes log of sum of exponentials", "statement": "LogSumExp along an axis equals the logarithm of the sum of the exponentials along that axis.", "quantifier": "all real inputs", "why_tests_cant": "identity over the reals", "anchors": ["operations.go:LogSumExp"]}
{"id": "C44", "title": "Activation and loss helpers compute their documented formulas", "statement": "Rectify is max(x,0), LeakyRelu is x for x>=0 and alpha*x otherwise, BinaryXent is -(y log p + (1-y) log(1-p)), Mish is x tanh(softplus x), Mean is the sum divided by the number of reduced elements, the 2-norm is the root of the sum of squares.", "quantifier": "all real inputs, all shapes", "why_tests_cant": "identities over the reals and all shapes", "anchors": ["nn.go:Rectify", "nn.go:LeakyRelu", "nn.go:BinaryXent", "operations.go:Mish", "operations.go:Mean", "operations.go:Norm"]}
{"id": "C45", "title": "KeepDims restores the rank", "statement": "KeepDims returns a node with as many axes as its operand, whose size list is that of the function's result padded with ones on the requested side; a result of higher rank is rejected.", "quantifier": "all operand and result shapes, both sides", "why_tests_cant": "all shape pairs", "anchors": ["shape.go:KeepDims"]}
{"id": "C46", "title": "Cloning a graph gives an isomorphic independent graph", "statement": "Cloning yields a graph with the same IDs, names, operand structure, roots, leaves and derivative links, none of whose nodes is shared with the original, and looking up IDs in the clone gives the clones.", "quantifier": "all graphs closed under operands", "why_tests_cant": "isomorphism over all graphs", "anchors": ["graph.go:Clone"]}
{"id": "C47", "title": "Subgraph selection contains what is needed and nothing else", "statement": "The exact subgraph of given roots consists of exactly the nodes reachable from them, so compiling it needs no node outside it; its leaves are exactly its nodes without operands.", "quantifier": "all graphs, all root lists", "why_tests_cant": "all graphs and root sets", "anchors": ["graph.go:ExactSubgraphRoots", "graph.go:subgraph", "graph.go:walkFromRoots"]}
{"id": "C48", "title": "Reduction folds are left folds of the binary operation", "statement": "ReduceAdd and ReduceMul of n nodes denote the left-associated sum / product of the nodes in order; in particular the multiple gradient contributions of a node are all added.", "quantifier": "all node lists", "why_tests_cant": "all lengths", "anchors": ["operations.go:ReduceAdd", "operations.go:ReduceMul"]}
{"id": "C49", "title": "Removing a node takes it out of every index and leaves the others alone", "statement": "After RemoveNode of a member, the node is not listed, not found by hash, has no entry in the reverse edge index and is not reported as a root; its edges are removed too (it is no longer listed as a user of its operands); the other nodes keep their order, their content, their recorded users, and are still found when the same expression is declared again.", "quantifier": "all reachable graphs (any hash function, collisions included), all members", "why_tests_cant": "the documented removal of the edges and the handling of a hash bucket shared with other nodes show only for particular graphs and later calls", "anchors": ["graph.go:RemoveNode", "graph.go:To", "graph.go:Roots", "graph.go:AddNode"]}
{"id": "C50", "title": "Solver options reach the solver they are given to", "statement": "Applying a solver option sets exactly the field the option is about in every solver type that has such a field, switches the penalty or clip on, changes no other field, and does nothing for a solver type without the field; options about different fields commute.", "quantifier": "all solver types, options, arguments, option lists and prior settings", "why_tests_cant": "a type switch that misses one solver type is silent: the solver keeps running with its defaults", "anchors": ["solvers.go:WithL2Reg", "solvers.go:WithClip", "solvers.go:WithLearnRate", "solvers.go:WithEps", "solvers.go:NewAdaGradSolver"]}
{"id": "C51", "title": "The Barzilai-Borwein learn rate is the least squares one", "statement": "From its second step on the Barzilai-Borwein solver uses the learn rate that makes eta times the change of the gradient as close as possible to the change of the weights, over all nodes together (clipped to the clip in size if asked); the weights move by it times the gradient, which is then zero; for a quadratic loss in one weight two steps reach the stationary point.", "quantifier": "all numbers and sizes of nodes, all weights, gradients and previous states with a changed gradient", "why_tests_cant": "optimality against every other learn rate", "anchors": ["solvers.go:BarzilaiBorweinSolver.Step"]}
{"id": "C52", "title": "AdamW decays the weights and steps by the bias-corrected ratio", "statement": "A step of AdamW multiplies the weights by 1 - eta*lambda and moves them by the bias-corrected ratio of the exponentially weighted moments with rates beta1 and beta2.", "quantifier": "all weights, gradient sequences and settings", "why_tests_cant": "all gradient sequences; an update applied to a copy leaves the model as it was without any error", "anchors": ["solvers.go:AdamW.Step", "solvers_utils.go:doL1Reg", "solvers_utils.go:divBatch"]}
{"id": "C53", "title": "Sparsemax along a given axis normalizes along that axis", "statement": "Sparsemax(x, axis) projects every line of x along the axis on the simplex and returns a tensor of the shape of x whose lines along the axis are these projections.", "quantifier": "all ranks, shapes and axes, all real inputs", "why_tests_cant": "all shapes; for symmetric inputs a misplaced axis goes unnoticed", "anchors": ["op_sparsemax.go:sparsemaxOp.Do", "op_sparsemax.go:newSparsemaxOp"]}
{"id": "C54", "title": "The gradient of Sparsemax is its derivative", "statement": "At every input none of whose entries equals the threshold, the gradient operation gives, for all output gradients, the derivative of the weighted sum of the outputs in every direction, for every rank that Sparsemax accepts, symbolically and define-by-run.", "quantifier": "all row lengths, inputs off the threshold, output gradients and directions", "why_tests_cant": "derivatives in all directions; the active set depends on the input", "anchors": ["op_sparsemax.go:sparsemaxDiffOp.Do", "op_sparsemax.go:sparsemaxOp.DoDiff"]}
{"id": "C55", "title": "Sum along axes and its gradients", "statement": "Summing a tensor along a list of axes gives, at every position of the remaining axes, the sum of the entries over the summed axes; the built gradient is the gradient of this function, and define-by-run adds the same gradient to the one held and leaves the gradient of the sum as it was.", "quantifier": "all ranks, shapes, duplicate-free axis lists, inputs and incoming gradients", "why_tests_cant": "all ranks and axis lists; the gradient is a statement about derivatives", "anchors": ["op_reduction.go:sumOp.Do", "op_reduction.go:sumOp.SymDiff", "op_reduction.go:sumOp.DoDiff", "op_reduction.go:reductionDo"]}
{"id": "C56", "title": "Max along axes and its gradient", "statement": "The maximum along a list of axes is, at every position of the remaining axes, the largest entry over those axes; the built gradient is the gradient where the maximum is attained once, and a subgradient where it is attained more often.", "quantifier": "all ranks, shapes, duplicate-free axis lists, inputs and incoming gradients", "why_tests_cant": "all shapes; at ties any finite difference passes for some side", "anchors": ["op_reduction.go:maxOp.Do", "op_reduction.go:maxOp.SymDiff", "op_reduction.go:reductionDo"]}
{"id": "C57", "title": "The p-norm along an axis", "statement": "Norm(x, axis, p) is the p-th root of the sum of the p-th powers of the absolute values along the axis, for every p it accepts.", "quantifier": "all ranks, shapes, axes, exponents and real inputs", "why_tests_cant": "all exponents and signs of the entries", "anchors": ["operations.go:Norm"]}
{"id": "C58", "title": "Softmax and log-softmax and their gradients", "statement": "Along the axis given (the last, or the only one of a vector, by default) the softmax is positive, sums to one and has the ratios of the exponentials, log-softmax is its logarithm; the built gradient is the gradient for every accepted input, and define-by-run adds the same gradient to the one held for the operand and leaves the gradient of the result alone.", "quantifier": "all ranks, shapes, axes, inputs and incoming gradients", "why_tests_cant": "all shapes and axes; the gradient is a statement about derivatives", "anchors": ["op_softmax.go:softmaxOp.UsePreallocDo", "op_softmax.go:softmaxDiffOp.UsePreallocDo", "op_softmax.go:softmaxOp.DoDiff"]}
{"id": "C59", "title": "Minimum and maximum of two tensors and their gradients", "statement": "The operations give the smaller / larger entry at every position; the gradients built for the two operands are the gradients where there is no tie and a subgradient (supergradient) at ties; define-by-run gives the same gradients.", "quantifier": "all shapes, inputs and incoming gradients", "why_tests_cant": "all inputs including ties", "anchors": ["op_minmaxBetween.go:minmaxSymDiff", "op_minmaxBetween.go:minmaxAutoDiff", "op_minmaxBetween.go:maxBetween.Do"]}
{"id": "C60", "title": "The gradient of Repeat", "statement": "For repeating a tensor along an axis, the built gradient has the operand's shape and gives every element the sum of the incoming gradient over its copies, so that it is the gradient; define-by-run adds the same to the derivative held.", "quantifier": "all ranks, shapes, axes, repetition counts, inputs and incoming gradients", "why_tests_cant": "all shapes; on axes of size one a wrong formula has the right elements", "anchors": ["op_tensor.go:repeatOp.SymDiff", "op_tensor.go:repeatOp.DoDiff"]}
{"id": "C61", "title": "The gradient of Broadcast", "statement": "For an operand broadcast along any axes, which it has as unit axes or lacks, the gradient that reverse mode builds through the repetitions and the reshape has the operand's shape and is the gradient.", "quantifier": "all broadcast patterns, shapes, inputs and incoming gradients", "why_tests_cant": "all patterns and shapes; the axes shift as they are summed away", "anchors": ["broadcast.go:Broadcast", "op_tensor.go:repeatOp.SymDiff", "op_tensor.go:reshapeOp.SymDiff"]}
{"id": "C62", "title": "First and second derivatives of Slice", "statement": "The gradient built for slicing along an axis is the gradient; define-by-run adds the same; and differentiating the built gradient again gives the second derivative.", "quantifier": "all ranks, axes, ranges, inputs, incoming gradients", "why_tests_cant": "all shapes; second derivatives are not run by the tests", "anchors": ["op_tensor.go:sliceOp.SymDiff", "op_tensor.go:sliceOp.DoDiff", "op_tensor.go:sliceIncrOp.SymDiff", "op_tensor.go:sliceIncrOp.DiffWRT", "op_tensor.go:sliceIncrOp.DoDiff"]}
{"id": "C63", "title": "The gradient of Reshape", "statement": "The gradient built for a reshape is the gradient; define-by-run adds it to the derivative held for the operand and leaves the derivative of the result alone.", "quantifier": "all shapes with equally many elements, inputs, derivatives held and incoming gradients", "why_tests_cant": "operands used twice are needed to see lost contributions", "anchors": ["op_tensor.go:reshapeOp.SymDiff", "op_tensor.go:reshapeOp.DoDiff"]}
{"id": "C64", "title": "Upsample2D and its gradient", "statement": "Upsample2D by a scale repeats every pixel over a square block of that side, for every batch and channel; the scales accepted are exactly the ones from 1 up; and the built gradient gives every pixel the sum of the incoming gradient over its block, which is the gradient.", "quantifier": "all batch, channel and image sizes, scales, inputs and incoming gradients", "why_tests_cant": "all sizes; the gradient is a statement about derivatives", "anchors": ["op_upsample.go:upsampleOp.Do", "op_upsample.go:upsampleDiffOp.Do", "op_upsample.go:Upsample2D"]}
{"id": "C65", "title": "Average pooling", "statement": "AveragePool2D gives for every window the mean of the pixels in it (with pads counting as zero), with every padding and stride accepted; AveragePool1D likewise; and the gradient spreads the incoming gradient of a window evenly over its pixels.", "quantifier": "all image sizes, kernels, paddings, strides, inputs and incoming gradients", "why_tests_cant": "all geometries; a wrong divisor is invisible where kernel and image sizes happen to agree", "anchors": ["op_avg_pool.go:avgPoolOp.f64s", "op_avg_pool.go:avgPoolDiffOp.f64s", "op_avg_pool.go:AveragePool1D"]}
{"id": "C66", "title": "Dropout and its gradient", "statement": "While training, dropout keeps an element exactly when the number drawn for it is below the keeping probability and divides it by that probability, so that the result has the operand as mean; outside training it is the identity; its gradient is the gradient for the same draws; and every entry point works, with or without a preallocated result.", "quantifier": "all operands, draws, probabilities and incoming gradients", "why_tests_cant": "statements about all draws, about an expectation and about derivatives", "anchors": ["op_dropout.go:dropoutOp.Do", "op_dropout.go:dropoutOp.UsePreallocDo", "op_dropout.go:dropoutDiffOp.UsePreallocDo"]}
{"id": "C67", "title": "Global average pooling", "statement": "GlobalAveragePool2D gives for every batch and channel the mean of all pixels, with shape (b, c, 1, 1).", "quantifier": "all batch, channel and image sizes, inputs", "why_tests_cant": "all sizes", "anchors": ["op_nn.go:globalAveragePoolOp.Do"]}
{"id": "C68", "title": "Batch normalisation and its gradient", "statement": "While training, batch normalisation subtracts from every element the mean of its channel over batch and image and divides by the root of the variance plus epsilon, and moves the running mean and variance by the momentum; outside training it uses the running mean and variance; with and without a preallocated result; and the gradient is the derivative of that, in both modes, for every schedule of the goroutines.", "quantifier": "all batch, channel and image sizes, inputs, running statistics, incoming gradients and goroutine schedules", "why_tests_cant": "the gradient is a statement about derivatives; all schedules; evaluation mode gradients are not tested", "anchors": ["op_nn.go:BatchNormOp.f64s", "op_nn.go:BatchNormOp.UsePreallocDo", "op_nn.go:batchnormDiffOp.f64s", "op_nn.go:BatchNormOp.DoDiff"]}
{"id": "C69", "title": "Group normalisation and its gradient", "statement": "Group normalisation subtracts from every element the mean of its group of channels of its image and divides by the root of the variance of the group plus epsilon, for all group sizes; its symbolic and its define-by-run gradients are the derivative, for every schedule of the goroutines.", "quantifier": "all batch sizes, groups, channels, image sizes, inputs, incoming gradients and goroutine schedules", "why_tests_cant": "the moments are computed in blocks whose sizes the tests do not reach; the gradient is a statement about derivatives", "anchors": ["op_group_norm.go:GroupNormOp.f64s", "op_group_norm.go:GroupNormOp.rowwiseMomentsF64", "op_group_norm.go:groupNormDiffOp.f64s", "op_group_norm.go:GroupNormOp.DoDiff"]}
{"id": "C70", "title": "ByIndices and its gradient", "statement": "ByIndices reads the operand along an axis at the places the indices name, in their order and with repetitions, and rejects indices off the axis and axes the operand does not have; the inferred shape is the shape of the value; the gradient built adds up, for every element, the incoming gradient over all places that read it, and is the gradient; define-by-run gives the same.", "quantifier": "all ranks, shapes, axes, index lists, inputs and incoming gradients", "why_tests_cant": "repeated indices are needed to see lost contributions; the gradient is a statement about derivatives", "anchors": ["op_by_indices.go:byIndicesOp.Do", "op_by_indices.go:byIndicesOp.SymDiff", "op_by_indices.go:byIndicesOp.DoDiff", "op_by_indices.go:byIndicesOp.InferShape"]}
{"id": "C71", "title": "The inferred type of a node is the type of its value", "statement": "Whenever a node is built, the type inferred by unification is the type of a value with the inferred shape and the right element type; operands with clashing element types, or scalars where tensors are needed, are rejected; and decisions taken by the type (which product to build) agree with the shapes.", "quantifier": "all modelled operations with all parameters, all element types, all shapes without empty axes", "why_tests_cant": "all combinations of operations, element types and ranks", "anchors": ["typeSystem.go:inferNodeType", "op_math.go:elemBinOp.Type", "op_reduction.go:reductionType", "op_tensor.go:repeatOp.Type", "op_nondiff.go:diagFlatOp.Type", "operations.go:Mul", "op.go:ApplyOp"]}
{"id": "C72", "title": "Conversion between element types", "statement": "Converting a tensor between element types keeps the shape and gives every element the value converted as in Go; every conversion that can be built can be run; scalars are converted to scalars; the gradient built is the gradient.", "quantifier": "all element types, shapes, values and incoming gradients", "why_tests_cant": "all values; the gradient is a statement about derivatives", "anchors": ["op_types.go:dtConvOp.Do", "op_types.go:dtConvOp.UsePreallocDo", "op_types.go:dtConvOp.SymDiff", "op_types.go:ConvType"]}
{"id": "C73", "title": "The CTC loss is the negative log likelihood of the target", "statement": "The CTC loss of an element of the batch is minus the logarithm of the sum, over all paths of its input length that collapse to its target (merging repeats, then dropping blanks), of the product of the probabilities along the path; the sum and mean reductions combine the elements; for both layouts of the targets, all lengths and every schedule of the goroutines; +Inf exactly when the target is impossible.", "quantifier": "all batch sizes, numbers of labels, input and target lengths, targets (also empty), log probabilities (also -Inf) and goroutine schedules", "why_tests_cant": "the number of paths is exponential; the recursion has cases for blanks, repeated labels and -Inf that a handful of inputs do not separate", "anchors": ["op_ctc_loss.go:ctcLossOp.f64s", "op_ctc_loss.go:ctcLossOp.getPrimeTarget"]}
{"id": "C74", "title": "The gradient of the CTC loss", "statement": "The gradient computed by the backward pass is the derivative of the CTC loss with respect to the log probabilities, times the incoming gradient, for both reductions, all input lengths and every schedule of the goroutines.", "quantifier": "all batch sizes, labels, lengths, targets, log probabilities, incoming gradients, directions and goroutine schedules", "why_tests_cant": "a statement about derivatives of a sum over exponentially many paths; the tests compare with numbers recorded from the code", "anchors": ["op_ctc_loss.go:ctcLossDiffOp.f64s", "op_ctc_loss.go:ctcLossOp.SymDiff"]}
{"id": "C75", "title": "YOLOv3 decodes the boxes", "statement": "For every cell and every mask, YOLOv3 returns the box of the anchor the mask names: centre (sigmoid + cell) * stride, size anchor * exp, objectness and classes by sigmoid, read from the right channel of the right cell; the result has the inferred shape; batches are handled; the operand keeps its contents.", "quantifier": "all grid sizes, numbers of classes and anchors, masks, batch sizes and inputs", "why_tests_cant": "all tests use the masks 0, 1, 2, which hides which anchor is used, and one image at a time", "anchors": ["op_yolo.go:yoloOp.Do", "op_yolo.go:yoloOp.evaluateYOLO_f32", "op_yolo.go:yoloOp.InferShape"]}
{"id": "C76", "title": "Overlap of boxes in YOLOv3", "statement": "The overlap of two rectangles is the number of common points over the number of points of either, is between 0 and 1, symmetric, and 1 for a rectangle with itself; the best target of a box is the first with the largest overlap of the two boxes; the best anchor of a target is one with the largest overlap.", "quantifier": "all rectangles, all lists of targets and anchors", "why_tests_cant": "all positions of two rectangles; boxes that are not square are needed to tell width from height", "anchors": ["op_yolo.go:iou_f32", "op_yolo.go:getBestIOU_f32", "op_yolo.go:getBestAnchors_f32", "op_yolo.go:rectifyBox_f32"]}
{"id": "C77", "title": "The training output of YOLOv3", "statement": "In training mode the losses are computed from the boxes the op decodes; the box responsible for a target, and no other, is charged for centre, size, objectness and classes, each at its own place; a prediction that decodes to the target is not charged; the other boxes are charged for objectness if they overlap no target; and the cost can be differentiated.", "quantifier": "all grid sizes, classes, anchors, masks, targets and predictions", "why_tests_cant": "training mode is not tested; which place is charged depends on the cell, the mask and the target", "anchors": ["op_yolo.go:yoloOp.Do", "op_yolo.go:prepareOutputYOLO_f32", "op_yolo.go:invsigm32", "differentiation.go:forwardDiffAnalysis"]}
{"id": "C78", "title": "Cloning, copying and zeroing values", "statement": "A clone of a value reads the same as the value, occupies other memory, and leaves everything else as it was, so later changes to one do not show in the other; copying makes the destination read as the source; zeroing keeps type and shape; every dual value that can be cloned can be cloned to zero; binding by copy never lets two nodes share memory.", "quantifier": "all heaps, scalars, tensors and dual values with and without derivative", "why_tests_cant": "sharing of memory shows only when one of the two is changed later; all heaps", "anchors": ["values_utils.go:CloneValue", "values_utils.go:ZeroValue", "values_utils.go:Copy", "dual.go:dualValue.Clone", "dual.go:dualValue.clone0", "node.go:Node.bindCopy"]}
{"id": "C79", "title": "Equality and closeness of values", "statement": "Equality of values answers for all pairs of values, is reflexive, symmetric and transitive, and holds exactly when type, shape and elements agree; equal values are close, and close values have the same shape; a constant of a graph that is reused for a value equals that value.", "quantifier": "all heaps and pairs of values, including nil and dual values", "why_tests_cant": "the pairs on which it goes wrong (nil on one side, same numbers in another shape) are not compared by tests", "anchors": ["values_utils.go:ValueEq", "values_utils.go:ValueClose", "equalities.go:scalarEq", "equalities.go:tensorClose", "dual.go:dualValue.ValueEq", "graph.go:ExprGraph.Constant"]}
{"id": "C80", "title": "The value bound to a node has the type and the shape of the node", "statement": "Let accepts what has the element type and shape of the node and refuses everything else, with an error; a node made with any options in any order has a value of its type and of its shape; what the user passes is not changed.", "quantifier": "all nodes, all values and Go numbers, all lists of construction options", "why_tests_cant": "all lists of options; a wrong value is only noticed when the graph is run", "anchors": ["gorgonia.go:Let", "gorgonia.go:UnsafeLet", "node.go:WithValue", "node.go:WithShape", "node.go:WithType", "node.go:WithGrad", "node.go:newNode", "node.go:Node.bind"]}
{"id": "C81", "title": "Dual values start with the right derivative", "statement": "A dual value made of a constant has derivative zero, of a variable derivative one, in the type and shape of the value and in memory of its own; reusing a dual value for a new result sets the derivative to zero, respectively one, in the shape of the result.", "quantifier": "all heaps, values, element types and shapes, host and device memory", "why_tests_cant": "all shapes and element types; sharing of memory shows only later", "anchors": ["dual.go:constantDV", "dual.go:variableDV", "dual.go:dvBind0", "dual.go:dvBindVar0", "dual.go:dualValue.SetDeriv", "dual.go:dvUnitManaged", "dual.go:dvUnitVarManaged", "values.go:makeValueFromMem"]}
{"id": "C82", "title": "Weight initialisers draw from the distribution they name", "statement": "Every element is drawn from a distribution of mean zero: normal or uniform, as the name of the initialiser says, for both float types; the variance is gain^2 * 2/(fan in + fan out) for Glorot and gain^2/(fan in) for He; ranges start at the given number and grow by the given increment.", "quantifier": "all shapes, gains and float types", "why_tests_cant": "the output is random: a sample from a normal distribution passes for one from a uniform distribution of the same variance", "anchors": ["weights.go:GlorotEtAlN64", "weights.go:GlorotEtAlU64", "weights.go:GlorotEtAlN32", "weights.go:GlorotEtAlU32", "weights.go:HeEtAlN64", "weights.go:HeEtAlU64", "weights.go:RangedFromWithStep", "weights.go:ValuesOf"]}
{"id": "C83", "title": "Scaling and shifting after normalisation", "statement": "Batch and group normalisation return scale * normalised + bias with one scale and one bias per channel, for every shape the operation accepts; parameters that are left out are one number per channel.", "quantifier": "all shapes, scales, biases, inputs and both modes", "why_tests_cant": "all shapes and the positions of the channel axis; the default parameters are random and not compared by tests", "anchors": ["nn.go:BatchNorm", "op_group_norm.go:GroupNorm", "broadcast.go:autoBroadcastPattern"]}
{"id": "C84", "title": "Every queued BLAS call is run, in order", "statement": "A call handed to the queue of BLAS calls is run exactly once, after the calls handed over before it and before RunAll returns, in every schedule of the goroutines and for every grouping of the calls.", "quantifier": "all sequences of calls, all programs, all interleavings of the worker, the collector and the caller of RunAll", "why_tests_cant": "all interleavings; which calls are left behind depends on how they happen to be grouped", "anchors": ["blase/work.go:context.DoWork", "blase/work.go:context.enqueue", "noextern.go:ExternMetadata.collectBLASWork", "vm_tape.go:tapeMachine.RunAll", "vm_tape.go:flushInstr.exec"]}
{"id": "C85", "title": "A queued product is the product", "statement": "The arguments handed over for a product of two matrices, or of a matrix and a vector, reach the CBLAS function of that name and describe the product asked for: for all transpositions and all sizes the memory of the result then holds alpha * op(A) op(B) + beta * C (alpha * op(A) x + beta * y), and nothing else changes.", "quantifier": "all matrices, vectors, sizes, leading dimensions, strides and transpositions", "why_tests_cant": "tests with square matrices do not tell rows from columns", "anchors": ["blase/blas.go:context.Dgemm", "blase/blas.go:context.Dgemv", "blase/fn.go:fnargs", "blase/work.c:processFn", "blase/work.h:cblasFn"]}
{"id": "C86", "title": "The tape machine with a queue of BLAS calls ends", "statement": "RunAll of a tape machine with a queue of BLAS calls returns in every schedule: no goroutine waits for ever for room in the queue or for a signal, and none panics.", "quantifier": "all programs and all interleavings of the worker, the collector and the caller", "why_tests_cant": "deadlocks and panics show in some interleavings only", "anchors": ["vm_tape.go:tapeMachine.RunAll", "vm_tape.go:tapeMachine.runall", "noextern.go:ExternMetadata.DoWork", "blase/work.go:context.enqueue"]}
{"id": "C87", "title": "Starting, failing and ending of the define-by-run machine", "statement": "RunAll runs every node once in order and differentiates in reverse order; it returns in every schedule; when a node fails, the error names that node, nothing is run or changed after RunAll has returned, and the goroutine it started ends.", "quantifier": "all graphs, all nodes that may fail, with and without backpropagation, all interleavings of the two goroutines", "why_tests_cant": "all interleavings; a goroutine that is left behind does not show in a test", "anchors": ["vm_genera.go:lispMachine.RunAll", "vm_genera.go:lispMachine.runall", "vm_genera.go:lispMachine.backward"]}
{"id": "C88", "title": "LastRun gives the node run last", "statement": "After a run of the define-by-run machine LastRun returns the node executed or differentiated last.", "quantifier": "all graphs, with and without backpropagation", "why_tests_cant": "not tested; all graphs", "anchors": ["vm_genera.go:lispMachine.LastRun"]}
{"id": "C89", "title": "Watching for NaN, infinities and shared memory", "statement": "With the NaN or infinity watch on, a run is stopped exactly when an operation produces a NaN or infinity, and at the first such operation; the checks answer for all values; with the pointer watch on it is stopped exactly when two operations write to the same memory.", "quantifier": "all programs, registers, nodes and values, both machines", "why_tests_cant": "all positions of a NaN; the one register and the one node that are not checked have to be hit", "anchors": ["vm_tape.go:tapeMachine.runall", "vm_genera.go:lispMachine.forward", "utils.go:hasNaN", "utils.go:hasInf", "vm.go:WithInfWatch"]}
{"id": "C90", "title": "A machine runs in its own mode", "statement": "A machine made for training trains and one made for evaluation evaluates, whatever other machines are made for the same graph; making a machine keeps what batch normalisation has learned.", "quantifier": "all sequences of making machines for a graph and running them, all operations with a mode", "why_tests_cant": "all histories; tests make one machine per graph", "anchors": ["vm.go:EvalMode", "vm_tape.go:NewTapeMachine", "vm_genera.go:NewLispMachine", "op_nn.go:BatchNormOp.SetTraining", "op_dropout.go:dropoutOp.SetTraining"]}
{"id": "C91", "title": "Options of the machines do not interfere", "statement": "An option of a machine turns its own switch on and leaves all other switches as they are; of the options that exclude each other the last counts.", "quantifier": "all states of the flags, all options", "why_tests_cant": "all states of the flags", "anchors": ["vm.go:ExecuteFwdOnly", "vm.go:ExecuteBwdOnly", "vm_tape.go:tapeMachine.doTrace", "vm_genera.go:lispMachine.doExecFwd"]}
{"id": "C92", "title": "Gradients reach the nodes they belong to", "statement": "After a run every node for which BindDualValues asked carries in the derivative part of its dual value the sum of the values of the nodes that are labelled as its derivative, each once, and nothing else; a run on inputs without earlier derivatives gives the gradient, however often the program was run before; it does not depend on the order in which the graph was sorted.", "quantifier": "all programs, all labels, all orders of execution, all numbers of runs", "why_tests_cant": "all orders and labels; tests run once and read one gradient", "anchors": ["vm_tape_nocuda.go:execOp.exec", "vm.go:BindDualValues", "vm_tape.go:tapeMachine.RunAll", "dual.go:dvUnit", "node.go:Node.bind"]}
{"id": "C93", "title": "The training loop descends along the gradient of the cost", "statement": "For every graph, k rounds of RunAll, Step and Reset apply to every weight, k times, the solver's rule to the weight and the derivative of the cost with respect to that weight at the weights reached so far; other inputs stay as they are, and each round starts from the same machine state.", "quantifier": "all graphs, all compiled programs, all weights and solvers, all numbers of rounds", "why_tests_cant": "the whole chain from Grad over compilation, execution and delivery to the solver, for all programs and any number of rounds", "anchors": ["gorgonia.go:Grad", "compile.go:Compile", "vm_tape.go:tapeMachine.RunAll", "vm_tape_nocuda.go:execOp.exec", "solvers.go:VanillaSolver.Step", "vm_tape.go:tapeMachine.Reset"]}
{"id": "C94", "title": "Lifted functions pass errors on", "statement": "A chain of lifted functions whose error is looked at once, at the end, leaves the graph in the same state and ends with the same node or the same error as the plain functions with the error looked at after every call: an argument with an error keeps the function from being called, the first error wins. NodesFromInputs succeeds exactly on inputs that are nodes without errors.", "quantifier": "all functions, all inputs including types of the user, chains of any length", "why_tests_cant": "all functions and chains; tests lift one function", "anchors": ["ermagerdmonards.go:Lift1", "ermagerdmonards.go:Lift2", "ermagerdmonards.go:TransformResult", "ermagerdmonards.go:CheckOne", "ermagerdmonards.go:NodesFromInputs"]}
{"id": "C95", "title": "An op run outside of a machine delivers its result where it was asked to", "statement": "ExternalOp.Do computes the op once on the operands as they are and leaves the result in the preallocated value, adds it to the value to be incremented, overwrites the first operand or makes a fresh value, as asked, and changes no other value; DetermineDevice finds the device when all nodes are on the same one.", "quantifier": "all ops with any of the optional interfaces, all operands, all settings", "why_tests_cant": "all combinations of optional interfaces and settings, including aliasing of operand and preallocated value", "anchors": ["execution.go:ExternalOp.Do", "execution.go:ExternalOp.DetermineDevice", "execution.go:NewExternalOp"]}
{"id": "C96", "title": "Scalar functions with cut-offs are close to the functions they stand for", "statement": "The sigmoid and softplus of the library differ from the mathematical functions by less than a small bound on the whole real line, are exact between the cut-offs, keep the range and the monotonicity of the functions, and sign times number is the absolute value.", "quantifier": "all real numbers, all cut-offs", "why_tests_cant": "all reals; tests compare a few values", "anchors": ["math_nooptim.go:_sigmoidf64", "math_nooptim.go:_sigmoidf32", "math.go:_softplusf64", "math.go:_softplusf32", "math.go:_signf64"]}
{"id": "C97", "title": "The engine's transposition moves every element to its place", "statement": "StandardEngine.Transpose turns the data of a tensor with permuted axes into the row-major data of the transposed tensor, for both element types alike, and touches no element that is not part of the tensor.", "quantifier": "all shapes, all permutations of axes, all data, all views", "why_tests_cant": "all shapes of any rank; tests transpose matrices", "anchors": ["engine.go:StandardEngine.Transpose"]}
{"id": "C98", "title": "Recycling leaves shapes in use alone", "statement": "Whatever nodes, tensors and constants are created, merged and recycled, every tensor, node and constant that is still in use has the shape it was created with, and no slice that was given back is in use.", "quantifier": "all histories of creating nodes, tensors and constants, all choices of the pool", "why_tests_cant": "all histories and all choices of the pool; sharing shows up only later, elsewhere", "anchors": ["perf.go:returnNode", "node.go:WithValue", "node.go:WithShape", "node.go:NewUniqueNode", "gorgonia.go:NewConstant"]}
{"id": "C99", "title": "Unbinding gives back what the graph owns, once", "statement": "UnbindAllNonInputs unbinds all nodes but inputs and constants, empties only tensors bound to those nodes, and gives each back once; UnbindAll unbinds all nodes and leaves the tensors of the user alone.", "quantifier": "all graphs, all bindings including shared tensors", "why_tests_cant": "all bindings; a tensor given back twice shows up only when it is handed out twice", "anchors": ["node.go:Node.unbind", "graph.go:ExprGraph.UnbindAll", "graph.go:ExprGraph.UnbindAllNonInputs", "perf.go:returnDV", "perf.go:returnValue"]}
{"id": "C100", "title": "All ways to run an elementwise operation agree", "statement": "Do, UsePreallocDo, UnsafeDo and IncrDo of an elementwise operation on two operands give the same elements: in a new value, in the preallocated value, in the first tensor, added to the value to be incremented; each exactly on the operands on which Do succeeds, and no other value in memory changes.", "quantifier": "all operations, all scalars and tensors of all element types and shapes, all states of memory", "why_tests_cant": "all combinations of operand kinds, element types, shapes and modes; most modes are reached only inside the machines", "anchors": ["op_math.go:elemBinOp.Do", "op_math.go:elemBinOp.UsePreallocDo", "op_math.go:elemBinOp.UnsafeDo", "op_math.go:elemBinOp.IncrDo", "operatorPointwise_binary.go:scalarBinOp.Do", "operatorPointwise_binary.go:tBinOp.do"]}
{"id": "C101", "title": "Products of matrices on shared operands", "statement": "A product of matrices with transposed operands gives the product asked for and leaves its operands as they were, whatever operands it shares with itself and with products computed at the same time by other goroutines.", "quantifier": "all sets of products, all sharing of operands, all interleavings of their steps", "why_tests_cant": "all interleavings; a race between two transpositions in place shows up rarely and only for shared operands", "anchors": ["op_math.go:linAlgBinOp.do", "x/vm/node.go:computeFwd", "operatorLinAlg.go:matMulDiffExpr"]}
{"id": "C102", "title": "Slices handed in by the caller", "statement": "The constructors NewScalar, NewVector, NewMatrix and NewTensor apply their own options first and then the caller's, in the caller's order, and leave the caller's slice alone; NodeFromAny does so for a scalar, appending the value. For a tensor NodeFromAny puts the tensor's shape first, then the caller's options, then the value; the caller's slice is unchanged exactly when there is no room for two more elements behind it; otherwise the shape takes its first place and its last option is lost, so that a second use of the slice builds a node with the shape of the first tensor (or panics). Reshape replaces the negative entry of the slice it is given: a second use succeeds exactly for nodes of the same size, and refilling the slice changes the operation of the node made before. Transpose, Sum and Max leave the slice of axes alone but keep it: run at once they use the axes asked for, later whatever the slice holds then. BindDualValues leaves the slice of nodes alone; Subgraph sorts it, and may replace nodes by statements in it.", "quantifier": "for all arrays in memory, slices, capacities, options, shapes, nodes and contents of newly allocated arrays", "why_tests_cant": "Tests write the options out in the call, where the slice has no spare capacity and is used once; overwriting needs a slice with spare capacity that is used again.", "anchors": ["gorgonia.go:NodeFromAny", "operations.go:Reshape", "operations.go:Transpose", "operations.go:Sum", "operations.go:Max", "op_tensor.go:transposeOp.Do", "vm.go:BindDualValues", "graph.go:subgraph", "graph.go:Subgraph"]}
{"id": "C103", "title": "Queries over a whole graph", "statement": "Edges lists exactly the pairs (operand, user); so every listed edge is the reverse of what Edge and HasEdgeFromTo say, and the list is the one gonum asks for only in graphs without edges. Edge(i, j) is the edge from user to operand, nil otherwise. Node(id) is never the nil interface. To changes neither nodes nor operands, only how often an edge is listed. On the first call Roots lists exactly the members without users and the single operands of statements with one recorded use; so every use of a listed node is by a statement. Inputs and ByName list exactly the members asked for, ByName by increasing identifier. Constant returns a recorded constant with an equal value where there is one; otherwise a recorded constant with the same printed value, whatever its type.", "quantifier": "for all histories of building a graph, all identifiers, names and values", "why_tests_cant": "A graph built once from distinct expressions hides repeated edges and the cached state; that every edge of every graph is reversed relative to another query needs all graphs.", "anchors": ["graph.go:ExprGraph.Edges", "graph.go:ExprGraph.Edge", "graph.go:ExprGraph.Node", "graph.go:ExprGraph.To", "graph.go:ExprGraph.Roots", "graph.go:ExprGraph.Inputs", "graph.go:ExprGraph.ByName", "graph.go:ExprGraph.Constant"]}
{"id": "C104", "title": "Set assigns and Read delivers", "statement": "Set(t, op(a, b)) on the tape machine: the let instruction does nothing; of the values in memory exactly the one of the operand that the operation overwrites is replaced by the result (if the operation returns a pointer, calls nothing external and works in preallocated memory), whichever node t is. So Set assigns to t exactly if t is that operand; otherwise it changes another input, or nothing. Read on the tape machine: the first run delivers an independent copy; later runs copy the elements into the object delivered first, which keeps its shape, so values kept from earlier runs change; scalars are not read into tensors nor tensors into scalars. On the define-by-run machine Read delivers the object itself.", "quantifier": "for all operations, values, places of inputs, programs (register choice), heaps and shapes", "why_tests_cant": "Examples use w = w - rate * g, where the node assigned to is the overwritten operand, and read a value once; the other cases silently change other inputs or earlier results.", "anchors": ["gorgonia.go:Set", "gorgonia.go:Read", "regalloc.go:regalloc.allocMutableOp", "vm_tape.go:letInstr.exec", "vm_tape.go:readInstr.exec", "vm_genera.go:lispMachine.forward", "compile.go:codegenerator.addStmt"]}
{"id": "C105", "title": "Grad checks its arguments and starts from one", "statement": "Before differentiating, Grad returns an error exactly if the cost is no scalar or one of the nodes is no input. For a float cost it starts from the constant one of the type of the cost as the graph returns it: the right node if no recorded constant has the name of the constant one and no node its checksum; if a recorded constant has that name, this constant, whatever its type and value. For a scalar cost of any other type Grad returns neither gradients nor an error.", "quantifier": "for all graphs, costs, lists of nodes and constants", "why_tests_cant": "Tests differentiate float costs in graphs with constants of one type; the confusion needs a constant of another type or value with the same printed name.", "anchors": ["gorgonia.go:Grad", "graph.go:ExprGraph.AddNode"]}
{"id": "C106", "title": "Sizes read at run time and repetition into given memory", "statement": "Reading the size of an axis of a tensor (SizeOf) and turning it back into an integer gives the size exactly if the element type is int or a float that can represent the size (up to 2^24 always for float32); for other element types the graph is built but the run fails, and axes of 2^24+1 elements of float32 are taken as 2^24. The rounding used is to the nearest representable number. Repeat gives, along each axis that exists, each element rep times in a row, with and without memory for the result, whatever the memory held; except that with memory a tensor of one element that is no float is not repeated at all: the memory keeps what it held. So Broadcast and the gradient of Sum, as run by the tape machine, repeat floats rightly along all axes, leave int tensors of one element as stale memory, and fail for the other element types. At gives the element at the place and refuses places off the tensor.", "quantifier": "for all tensors, axes, element types, counts, contents of memory and lists of axes", "why_tests_cant": "Tests broadcast small float tensors; the wrong memory for one-element int tensors and the rounding of sizes need other types or axes of millions of elements.", "anchors": ["op_tensor.go:sizeOp.Do", "op_tensor.go:repeatOp.Do", "op_tensor.go:repeatOp.UsePreallocDo", "op_tensor.go:repeatedApply", "op_tensor.go:atOp.Do", "utils.go:valueToInt", "broadcast.go:Broadcast"]}
{"id": "C107", "title": "Memory handed to an operation is new, blank and its own", "statement": "When a run of the tape machine that starts with empty registers reaches an instruction for which memory was allocated beforehand, that memory was allocated in this run, still holds the blank value, and no other register and no bound value refers to it. Therefore operations that add to the memory they are given (increments of slices) or leave it alone run as if they overwrote it, and the run computes the expression graph; without emptying the registers a second run would add to the result of the first. The increment of a slice into given memory is what the memory held plus the gradient, so it is right exactly on memory of zeros.", "quantifier": "all programs without merged nodes, all operations, all contents of memory, all steps and ranges of slices", "why_tests_cant": "Stale memory shows only for particular orders of allocation and reuse; tests run few graphs once.", "anchors": ["compile.go:addNode", "regalloc.go:allocMutableOp", "vm_tape.go:alloc.exec", "vm_tape.go:Reset", "vm_tape_nocuda.go:execOp.exec", "op_tensor.go:sliceIncrOp.UsePreallocDo", "op_tensor.go:sliceIncrOp.Do"]}
{"id": "C108", "title": "A drawing shows the graph", "statement": "Writing a graph in the dot language never panics. The drawing has exactly the nodes of the graph, each once, and an edge from each node to each of its operands and no others. Every node stands in exactly one of the clusters for constants, inputs and the expression, and in the cluster of each group it was put in by the layer that built it; as long as only results of operations are put in groups, these clusters are within that of the expression, in whatever order the nodes are listed. The same graph always gives the same text.", "quantifier": "all reachable graphs, all groups, all orders in which Go maps are traversed", "why_tests_cant": "The order of Go maps is random, so a single comparison with an expected text may or may not notice the order of the clusters; tests draw a few small graphs.", "anchors": ["encoding/dot/copy.go:copyGraph", "encoding/dot/topgraph.go:generateDotGraph", "encoding/dot/exprsubgraph.go:exprSubGraph.Structure", "node.go:Node.Groups", "internal/encoding/groups.go:Groups.Upsert", "internal/encoding/groups.go:Groups.Have"]}
{"id": "C109", "title": "From the graph to the result of a run", "statement": "Two different nodes of a graph never have the same hash code and are equal at once, however the graph was built. Therefore, whenever the 32-bit hash does not collide on a graph, compiling the graph for the tape machine merges no nodes, and a run applies every operation of the graph exactly once to the values its operands denote, gives every node without users, every constant and every gradient of an input the value it denotes, and leaves the user's memory alone; the meaning of a graph is unique and does not depend on the order in which nodes are sorted.", "quantifier": "all graphs built by any sequence of calls, all hash functions, all operations, all orders of the nodes in which operands come first, all inputs", "why_tests_cant": "A collision of 32-bit hash codes does not occur in small test graphs, and the agreement of three parts (graph, compiler, machine) is only sampled by running examples.", "anchors": ["graph.go:AddNode", "equalities.go:nodeEq", "compile.go:Compile", "analysis.go:analyze", "analysis.go:vn", "regalloc.go:alloc", "vm_tape.go:RunAll"]}
{"id": "C110", "title": "The define-by-run machine differentiates the cost and nothing else", "statement": "On a graph with one scalar result whose value is read once or not at all, a run of the lisp machine delivers to every Read the value of its operand and adds to every entry of the derivative of every input the partial derivative of the cost; other nodes that are read are not taken for costs. A result or an unused input that is no scalar is refused, unless the caller sets the derivatives of roots.", "quantifier": "all graphs of tensor operations, all statements, all inputs and former derivatives, all numbers of times a value is read", "why_tests_cant": "The nodes that are differentiated depend on how often statements have been recorded and on whether the roots have been asked for before; the run succeeds and delivers the right values even where the gradients are lost.", "anchors": ["vm_genera.go:checkRoots", "vm_genera.go:forward", "graph.go:Roots", "node.go:isRoot", "graph.go:Clone", "gorgonia.go:Read"]}
{"id": "C111", "title": "Training with the define-by-run machine follows the gradient", "statement": "In a loop that makes a new lisp machine in every round, binds new data, runs the graph forwards and backwards and lets a solver take a step, every round succeeds, and the solver is applied to the elements of each weight and to the partial derivatives of the cost at the weights and data of that round: what earlier rounds have left bound to the nodes has no influence.", "quantifier": "all graphs of tensor operations, all sequences of data, all solvers that work weight by weight and zero the gradient, any number of rounds", "why_tests_cant": "Values and derivatives of all nodes stay bound from one round to the next; whether the gradients of a round are mixed with earlier ones shows only in the numbers of long runs.", "anchors": ["vm_genera.go:RunAll", "vm_genera.go:forward", "vm_genera.go:NewLispMachine", "dual.go:dvBind0", "dual.go:dvBindVar0", "node.go:bind", "gorgonia.go:Let", "solvers.go:Step"]}
{"id": "C112", "title": "Gradient nodes built once are right for all inputs", "statement": "Grad builds its gradient nodes once, from shapes alone, before any values are known. For every graph of tensor operations these nodes compute, at every input at which the operations work and can be differentiated, the gradient of the cost; and a tape machine program made of the nodes of the graph and of these gradient nodes, run, stepped with a solver and reset any number of times, applies the solver in every round to the weights and the gradient of the cost at the current weights.", "quantifier": "all graphs of tensor operations whose SymDiff is modelled (elementwise operations and comparisons, sums, maxima, slices, reshapes, transpositions, broadcasts, concatenations, softmax, products of matrices and vectors, batched products, contractions, im2col, pooling, upsampling, normalisations), all inputs, all solvers that zero the gradient, any number of rounds", "why_tests_cant": "A test evaluates the gradient nodes at a few inputs; that the nodes, whose form is fixed when the graph is built, are right for all later values of the weights cannot be tested.", "anchors": ["gorgonia.go:Grad", "differentiation.go:Backpropagate", "op_math.go:SymDiff", "op_reduction.go:SymDiff", "op_tensor.go:SymDiff", "operatorLinAlg.go:matMulDiffExpr", "operatorLinAlg.go:matVecMulDiffExpr", "op_tensor.go:repeatedApply", "vm_tape.go:RunAll"]}
{"id": "C113", "title": "Networks are trained as the textbook says", "statement": "If the operations of a graph work and can be differentiated at the first values of its inputs and the cost is a scalar, then Grad succeeds with the shapes that were inferred when the graph was built, and no gradient it returns is an input of the graph. A tape machine program made of the graph and its gradients can then be run, stepped with a solver and reset as long as the operations can be differentiated at the weights reached, and every round applies the solver to the weights and the gradient of the cost. For one layer of multi-head attention this holds for all weights and any number of rounds; for a network of a convolution, rectifier, max pooling, dense layer and cross entropy, as long as no rectifier is at its kink and no pooling window has a tie. The cost is then the formula of the textbook.", "quantifier": "all graphs of tensor operations, all shapes and values of the inputs, all numbers of rounds; for attention all numbers of heads, positions and sizes; for the convolutional network all images, filters, strides, paddings, dilations and pooling windows", "why_tests_cant": "A test trains one network of fixed size for a few rounds and checks that the cost goes down; a wrong gradient, a weight that is not updated or a stale shape can still let the cost go down.", "anchors": ["gorgonia.go:Grad", "differentiation.go:Backpropagate", "op.go:ApplyOp", "compile.go:Compile", "vm_tape.go:RunAll", "solvers.go:VanillaSolver.Step", "nn.go:Conv2d", "nn.go:Rectify", "nn.go:MaxPool2D", "op_math.go:BatchedMatMul"]}
{"id": "C114", "title": "The goroutine-per-node machine over its lifetime", "statement": "A machine may be run again after any run, finished, failed or cancelled. GetResult delivers, at any time, nothing or the value of the node's expression for the values bound to the inputs when the run started. A run that nobody cancels returns no error exactly if every node has a value, and the first error it reports is that of an operation that failed, not of a node stopped because of it. Close closes every channel once; a closed machine does not pretend to succeed, and closing again is harmless.", "quantifier": "all graphs whose operations have as many operands as their arity, all histories of runs, cancellations, bindings, and all interleavings", "why_tests_cant": "Leftovers of a cancelled run show only if the next run meets them in an unlucky schedule; tests run a fresh machine once.", "anchors": ["x/vm/machine.go:NewMachine", "x/vm/machine.go:Run", "x/vm/machine.go:runAllNodes", "x/vm/machine.go:GetResult", "x/vm/machine.go:Close", "x/vm/node.go:newInput", "x/vm/node.go:defaultState", "x/vm/pubsub.go:run"]}
{"id": "C115", "title": "The machines agree on the values of a graph", "statement": "On every graph in which every node has a value, the define-by-run machine run forwards binds to each node its value, the goroutine-per-node machine ends without error in every schedule and holds the same values, and the compiled program of the tape machine runs to its end and leaves the same values bound.", "quantifier": "for all graphs, operations, inputs and schedules of the goroutines", "why_tests_cant": "Tests run one machine at a time on a handful of graphs; agreement has to hold for every graph and, for the goroutine machine, for every interleaving.", "anchors": ["vm_tape.go:tapeMachine.RunAll", "vm_genera.go:lispMachine.forward", "x/vm/machine.go:Machine.Run"]}
{"id": "C116", "title": "A solver keeps the moments of a parameter with that parameter", "statement": "Solvers that remember something between two calls of Step (velocity, squared gradients, first and second moments, previous weights) use for each parameter exactly what came from the earlier steps of that parameter, for any sequence of models, and a Step that failed leaves them usable.", "quantifier": "for all loop bodies, numbers of rounds, models and contents of the parameters between the rounds", "why_tests_cant": "The tests step one fixed model; whose moments are used only shows when models differ between rounds or a round fails.", "anchors": ["solvers.go:RMSPropSolver.Step", "solvers.go:AdamSolver.Step", "solvers.go:Momentum.Step", "solvers.go:AdaGradSolver.Step", "solvers.go:AdamW.Step", "solvers.go:BarzilaiBorweinSolver.Step", "solvers.go:newCachedDV"]}
{"id": "C117", "title": "Elementwise operations on a device compute every element in every schedule", "statement": "An elementwise binary operation or comparison that the CUDA engine runs puts into the result, for every element, the operation applied to the elements of the operands (a scalar operand being used for all elements), and changes no other memory of the device, in whatever order the threads of the kernel take their steps.", "quantifier": "for all operations, shapes, scalar and tensor operands, reuse tensors, limits of the device and interleavings of the threads", "why_tests_cant": "The tests need a graphics card and small tensors; sizes near the limits of the grid and races between threads do not occur in them.", "anchors": ["cuda/external.go:ElemGridSize", "cuda/engine.go:calcBlocks", "cuda/arith.go:Add", "cuda/arith.go:AddScalar", "cuda/cmp.go:Lt", "cuda/utils.go:handleFuncOpts", "op_math_cuda.go:elemBinOp.CUDADo"]}
{"id": "C118", "title": "Unary operations on a device are the functions of the host", "statement": "An elementwise unary operation that runs on a device computes for every element the same real function as the operation on the host, writes nothing but the result, and an operation without a kernel runs on the host.", "quantifier": "for all unary operations, shapes, element values and schedules of the threads", "why_tests_cant": "Tests compare a few values; that each of two dozen kernels denotes the function used on the host has to hold for every number.", "anchors": ["op_math_cuda.go:elemUnaryOp.CUDADo", "operatorPointwise_unary_const.go:ʘUnaryOperatorType", "math.go:_signf64"]}
{"id": "C119", "title": "Matrix products on a device are matrix products", "statement": "The calls of the column-major BLAS which the CUDA engine makes for products of matrices and vectors and for outer products compute the product of the operands as the program sees them, for row-major and column-major and transposed operands, and write only to the result.", "quantifier": "for all sizes, data orders, transpositions and contents", "why_tests_cant": "Which of the eight combinations of orders and transpositions is used depends on the graph; square test matrices hide wrong leading dimensions.", "anchors": ["cuda/linalg.go:MatMul", "cuda/linalg.go:MatVecMul", "cuda/linalg.go:Outer"]}
{"id": "C120", "title": "Values survive the transfer between host and device", "statement": "A value transferred to a device and back is the same value; a transfer changes nothing but the memory of the new value, a synchronous transfer from a device has happened when it returns, a device that does not exist is an error, and a copy is given to the device it concerns.", "quantifier": "for all values, numbers of devices and states of the queues of the devices", "why_tests_cant": "Copies are queued and done later; whether a value is read too early depends on when the queues are flushed, and mixed up devices need a computer with several of them.", "anchors": ["cuda.go:Transfer", "cuda.go:Signal", "cuda.go:Contexts", "cuda.go:ValueOnDevice", "vm_tape_cuda.go:deviceTransport.exec", "values.go:calcMemSize"]}
{"id": "C121", "title": "Rounding errors in a graph and its gradient vanish with the roundoff", "statement": "If the inputs, every operation of a graph and every operation of the gradient nodes which `Grad` adds to it round their results, the values and the gradients that are computed are as near to the exact ones as one likes when the roundoff is small enough; and after any number of rounds of training with a rounding solver the weights are as near as one likes to those of exact training.", "quantifier": "for all graphs of differentiable operations, inputs at which the operations are continuous, implementations of the operations, choices of rounded results, and numbers of rounds", "why_tests_cant": "Tests run in one precision and compare with a tolerance; that no step of the derivative amplifies the roundoff without bound concerns all inputs.", "anchors": ["differentiation.go:Backpropagate", "gorgonia.go:Grad", "vm_tape.go:RunAll", "solvers.go:VanillaSolver.Step"]}
{"id": "C122", "title": "Sums and products of rounded numbers have a relative error bound", "statement": "A sum of n numbers that is rounded after every addition, in whatever order and with whatever brackets, differs from the exact sum by at most ((1+u)^(n-1) - 1) times the sum of the absolute values; an element of a matrix product or a batched matrix product with n terms by at most ((1+u)^n - 1) times the sum of the absolute values of the terms.", "quantifier": "for all numbers, numbers of terms, orders of summation and roundoffs u", "why_tests_cant": "Which order the BLAS or the kernel uses depends on the machine; tests see one order.", "anchors": ["op_math.go:linAlgBinOp.Do", "operatorLinAlg.go:batchedMatMul"]}
{"id": "C123", "title": "Transports put every operand on the device of its user", "statement": "When device transport instructions are inserted for the host and a device, the nodes keep their order, every value is transported at most once, every instruction finds its operands among the earlier ones, every node reads values that are on the device where it runs, and every node gets the value that it has without devices.", "quantifier": "for all graphs with any sharing and common subexpressions, all sorted orders, all distributions of the nodes over the host and one device, and all operations", "why_tests_cant": "The CUDA build cannot be run without a device, and the tests for it look at one graph each.", "anchors": ["analysis.go:analyzeDevice", "analysis.go:insertDeviceInstr", "analysis.go:newDevTransNode"]}
{"id": "C124", "title": "Programs for host and device compute the values of the graph", "statement": "A program compiled for the host and a device, with registers on both that are reused and freed, computes for every node the value that the graph gives it; every node reads and writes registers of the device on which it runs; every register has a place in the storage of its kind; and a value that nothing reads stays in its register until the program ends.", "quantifier": "for all graphs without let statements, all sorted orders, all distributions over the host and one device, all operations, and all contents of the registers before the run", "why_tests_cant": "Errors of liveness across devices show only in certain orders of nodes, and need a device to be seen.", "anchors": ["compile.go:Compile", "analysis.go:buildIntervals", "regalloc.go:allocMutableOp", "regalloc.go:allocStatement", "regalloc.go:alloc", "compile.go:insertFree"]}
{"id": "C125", "title": "Registers are freed once, after their last use, and exist", "statement": "The instructions that free registers free every register at most once, while the program runs only registers of devices, and nothing behind such an instruction reads or writes the register; and every register that is freed exists.", "quantifier": "for all programs with transports, in every order", "why_tests_cant": "A use after free on a device gives a wrong number or a crash depending on what else was allocated.", "anchors": ["compile.go:insertFree", "compile.go:insertLastFrees", "compile.go:gen", "vm_tape.go:free.exec"]}
{"id": "C126", "title": "Gradients computed on a device are added to the derivative", "statement": "When the value of a gradient node that runs on a device is delivered to the dual value of its input, the derivative on the host is, once the queues were flushed, its old value plus the sum of everything delivered to it, whatever the temporary memory is reused for.", "quantifier": "for all lengths, addresses, values, sequences of deliveries and other commands that do not copy to the derivative, and any number of devices", "why_tests_cant": "The CUDA build cannot be run without a device, and the memory that is given back before it is used matters only if it is given out again in between.", "anchors": ["vm_tape_cuda.go:execOp.exec", "cuda.go:Contexts", "cuda.go:DoWork"]}
{"id": "C127", "title": "Values are right although device operations wait in a queue", "statement": "In a program compiled for the host and a device, operations and copies of the device may be done at any time after they were issued, in order, and registers may get any memory that no register has at that moment. Every node is still computed exactly once with the value the graph gives it: what the host reads was copied before, no memory is reused while something that waits reads or writes it, and nothing waits at the end.", "quantifier": "for all graphs and devices of nodes (the host and one device), all operations and values, all schedules of the queue and all choices of the allocator", "why_tests_cant": "The CUDA build cannot be run without a device, and a missing flush or memory given out too early shows only under some schedules.", "anchors": ["compile.go:addNode", "compile.go:addStmt", "compile.go:flush", "compile.go:gen", "vm_tape_cuda.go:exec", "vm_tape.go:alloc.exec", "vm_tape.go:free.exec"]}
{"id": "C128", "title": "The memory reserved on a device suffices for the program", "statement": "No alloc instruction of a compiled program runs out of device memory: the engine reserves enough, for the sizes that the code generator has added up, that the allocator finds room for every register the program asks for, whatever was freed before and in whatever order the ranges lie.", "quantifier": "for all compiled programs, sizes of values and histories of calls of the allocator that a run can make", "why_tests_cant": "It depends on rounding, fragmentation and the sum over all registers; the CUDA build cannot be run without a device, and only programs with many small registers fail.", "anchors": ["compile.go:addInstr", "values.go:calcMemSize", "cuda.go:init", "cuda/external.go:doInit", "vm_tape.go:alloc.exec", "cuda/bfc.go:alloc", "cuda/bfc.go:free"]}
{"id": "C129", "title": "The gradient of a gradient is the second derivative", "statement": "If Grad gives the gradient of a cost for an input w, and Grad is then asked for the gradient of that gradient node with respect to an input v, the value of the answer is the derivative, with respect to v, of the derivative of the cost with respect to w.", "quantifier": "for all graphs of scalar operations, inputs, orders and sharing of the nodes that the first call has built, and points at which the operations are differentiable", "why_tests_cant": "Values of second derivatives are not tested in the repository; an answer that is only the first of several contributions, or the first derivative itself, still has the right type and shape.", "anchors": ["differentiation.go:Backpropagate", "gorgonia.go:Grad", "operatorPointwise_unary.go:cubeDiffExpr", "operatorPointwise_binary.go:hadamardProdDiffExpr"]}
{"id": "C130", "title": "The fast reciprocals and tangents are close to the functions", "statement": "In the fastmath build, reciprocals computed from the bits of the number and a few steps of Newton's method, the hyperbolic tangents by a continued fraction or a parabola, and the sigmoid differ from the function they stand for by a small bound, at every argument and optimization level.", "quantifier": "for all normal floating point numbers of both signs and all real arguments", "why_tests_cant": "The build tag is not part of the test runs; the result of the refinement being thrown away, or a panic at zero only, is not seen by comparing a few values with a tolerance.", "anchors": ["math_fast.go:_inversef64", "math_fast.go:_inversef32", "math_fast.go:_tanhf64", "math_fast.go:_tanhf32", "math_fast.go:_sigmoidf64"]}
{"id": "C131", "title": "Several graphs in one program do not disturb each other", "statement": "An operation is refused if no operand has a graph or if two operands that are not constants are in different graphs; an accepted operation goes into the graph of its operands. However the calls on several graphs are interleaved, no node is in two graphs, every graph keeps its own dense IDs, looking up an ID in a graph finds exactly that graph's node with this ID, the operands of a graph's nodes are nodes of the same graph, and no call changes a node that exists, in this or another graph.", "quantifier": "all programs (finite sequences of calls creating constants, inputs, adding constants to graphs and applying operations) over any number of graphs, any labels and hash functions", "why_tests_cant": "A graph writes IDs into node objects that all graphs share, so a mistake in one graph shows up as a wrong ID in another; tests build one graph at a time, and the damage only appears in interleavings of several graphs that share constants.", "anchors": ["op.go:ApplyOp", "collections.go:AllSameGraph", "graph.go:AddNode", "node.go:NewUniqueNode", "node.go:fixChildren"]}
{"id": "C132", "title": "Waiting products and operations that run at once do not overtake each other", "statement": "On the host, with a BLAS whose products wait in a queue, a compiled program leaves the same memory as a run of its operations one after the other, whenever the worker empties the queue: no operation reads the memory of a product that has not been computed, and none overwrites the memory of an operand of a product that still waits.", "quantifier": "all programs of operations on the host, all memories, all meanings of the operations, all times at which the worker runs", "why_tests_cant": "the default BLAS has no queue and makes flushes no-ops; with a queue the outcome depends on how quick the worker is", "anchors": ["compile.go:codegenerator.addNode", "compile.go:codegenerator.flush", "compile.go:codegenerator.updateLastWrites", "op_math_noextern.go:linAlgBinOp.CallsExtern", "op_tensor.go:repeatOp.CallsExtern", "blase/blas.go:context.Dgemm", "blase/work.go:context.DoWork", "vm_tape.go:flushInstr.exec"]}
{"id": "C133", "title": "Changing the slice of a node changes it and its dependants, and later requests denote what was asked for", "statement": "When UnsafeLet replaces the slice of a node, the nodes whose operation is that object stand for the new slice, nodes built from them follow, all others stand for what they stood for, and an operation applied afterwards returns a node that denotes the requested expression.", "quantifier": "all graphs built without removals, all hash functions, all sets of nodes that share an operation, all changes of the operation, all later requests", "why_tests_cant": "the wrong node appears only if the old expression is asked for again after the change and then used by an operation that was applied before the change", "anchors": ["gorgonia.go:UnsafeLet", "op_tensor.go:sliceOp.SymDiff", "op_tensor.go:sliceOp.WriteHash", "node.go:Node.Hashcode", "equalities.go:nodeEq", "node.go:NewUniqueNode", "graph.go:ExprGraph.AddNode"]}
{"id": "C134", "title": "The result of At is the element asked for", "statement": "An operation applied to the node that At(n, coords) returns is given the element of n at these coordinates, on the tape machine, the define-by-run machine and the goroutine-per-node machine.", "quantifier": "all programs that contain a node made by At, all operations and values, all users of that node, all schedules of the goroutine-per-node machine", "why_tests_cant": "no test of the repository uses At, and on the tape machine the wrong value is silent: it is the first input of the graph, of a shape that element-wise operations accept", "anchors": ["operations.go:At", "op_tensor.go:atOp.isStmt", "node.go:WithOp", "regalloc.go:regalloc.allocStatement", "compile.go:codegenerator.addStmt", "vm_genera.go:lispMachine.forward", "x/vm/machine.go:NewMachine"]}
{"id": "C135", "title": "Let and Set of the tape machine concern the nodes of its graph", "statement": "Let and Set of a tape machine accept exactly the nodes of the machine's graph; an accepted Set(a, b) gives a the value that b has, changes no other node, and what is later written to b's value does not change a.", "quantifier": "all programs with several graphs, all nodes, values, register assignments and memories", "why_tests_cant": "the repository calls neither method in a test with a second graph; a foreign node is accepted only if its ID happens to exist in the machine's graph, and the register it is then read from belongs to another node", "anchors": ["vm_tape.go:tapeMachine.Let", "vm_tape.go:tapeMachine.Set", "vm_tape.go:tapeMachine.getValue", "graph.go:ExprGraph.Has", "node.go:Node.bind"]}
{"id": "C136", "title": "Running a list of instructions leaves every node with its own value", "statement": "After Run of the tape machine every node that was computed is bound to the value it was computed to, as after RunAll; a list of instructions that can be executed is run without an error, even if it is only part of a program.", "quantifier": "all programs, lists of instructions, register assignments, operations and states of the machine", "why_tests_cant": "nothing in the repository calls Run; which node loses its value depends on which registers the allocator shares", "anchors": ["vm_tape.go:tapeMachine.Run", "compile.go:codegenerator.addNode", "vm_tape_nocuda.go:execOp.exec"]}
{"id": "C137", "title": "Lists of sizes are not shared between goroutines", "statement": "Whatever goroutines apply operations at the same time, the list of sizes that each hands to InferShape has the asked length, is empty when it is borrowed, then holds what the same goroutine filled in, and is in no other goroutine's hands.", "quantifier": "all interleavings of borrowing, filling and giving back by any number of goroutines, all lengths, all choices of the pools, all losses of pooled lists", "why_tests_cant": "all interleavings; the pool of a length is made by whoever needs it first, and a list that is given back with its old entries would show only if the next operation leaves an entry unfilled", "anchors": ["perf.go:borrowDimSizers", "perf.go:returnDimSizers", "collections.go:Nodes.dimSizers", "op.go:ApplyOp"]}
{"id": "C138", "title": "The options of a machine do what they say", "statement": "Each switch of a new machine is on exactly if an option for it was given, whatever other options are given and in whatever order; the last option counts where options contradict each other; and an option leaves alone what another asks for.", "quantifier": "all lists of options, all watchlists, lists of nodes and precompiled programs", "why_tests_cant": "The switches are bits of shared words that different options set by shifting and masking; there are exponentially many lists of options, and tests use a few.", "anchors": ["vm.go:TraceExec", "vm.go:WithWatchlist", "vm.go:BindDualValues", "vm.go:WithNaNWatch", "vm.go:WithInfWatch", "vm.go:WithPointerWatch", "vm.go:ExecuteFwdOnly", "vm.go:ExecuteBwdOnly", "vm.go:LogBothDir", "vm.go:WithPrecompiled", "vm.go:WithManualGradient", "vm_tape.go:NewTapeMachine", "vm_genera.go:NewLispMachine"]}
{"id": "C139", "title": "What is watched is logged, and failures name the right node", "statement": "The tape machine logs every instruction that touches a watched register or node and no other; logging never stops a run or a fragment; the node named when an instruction fails is the node the instruction was made for.", "quantifier": "all programs, watchlists, counters, fragments and instructions", "why_tests_cant": "Which instruction stands for which node goes through a map with one place for all instructions without a number; tests watch single nodes of small programs and let no statement fail.", "anchors": ["vm_tape.go:tapeMachine.watchedLogf", "vm_tape.go:tapeMachine.nodeFromInstr", "vm_tape.go:tapeMachine.runall", "vm_tape.go:tapeMachine.Run", "compile.go:codegenerator.gen"]}
{"id": "C140", "title": "Random nodes draw what they name", "statement": "The value of a random node has the type and shape the node was made with, and every element of it is drawn from the distribution the node names, for scalars as for tensors and for both float types; executing fails only for types that are not floats; different nodes draw independent numbers.", "quantifier": "all distributions, parameters, types, shapes, generators and clock readings", "why_tests_cant": "values are random, so that tests look at shapes only; whether two nodes see the same clock reading depends on the machine", "anchors": ["op_nn.go:randomOp.Do", "op_nn.go:randomOp.Type", "gorgonia.go:UniformRandomNode", "gorgonia.go:GaussianRandomNode", "gorgonia.go:BinomialRandomNode", "weights.go:Uniform32", "weights.go:Binomial64"]}
{"id": "C141", "title": "What Go values become in the graph", "statement": "A Go number becomes a scalar holding that number with its own element type, a value stays itself; the type and Dtype reported are those of the value; one and zero are those of the Dtype asked for. NodeFromAny and NewConstant make nodes that hold the value and have its shape and type, the same for both, and panic exactly for arguments that cannot be converted.", "quantifier": "all Go values of the types handled, all values including nested dual values, all Dtypes", "why_tests_cant": "the conversions are switches over all types; a copied line with the wrong type is only seen for that type", "anchors": ["values_primitives.go:anyToScalar", "values_primitives.go:anyToValue", "values_primitives.go:one", "values_primitives.go:zero", "gorgonia.go:NodeFromAny", "gorgonia.go:NewConstant", "node.go:WithValue"]}
{"id": "C142", "title": "What the define-by-run machine logs", "statement": "The define-by-run machine writes something about an execution exactly if a logger and LogFwd are given and the node is watched, and about a differentiation exactly if a logger and LogBwd are given and its output or one of its inputs is watched; logging never stops a run.", "quantifier": "all graphs, watchlists, flags, with and without backpropagation", "why_tests_cant": "tests do not look at what is logged; all graphs and combinations of flags", "anchors": ["vm_genera.go:lispMachine.watchedLogf", "vm_genera.go:lispMachine.logf", "vm_genera.go:lispMachine.forward", "vm_genera.go:lispMachine.backward"]}
{"id": "C143", "title": "Unary operations apply the function they are named after", "statement": "Every unary operation applies the function of its name to each element, for scalars and tensors of every element type the engine can handle, whether the engine has a method for it or not; the operation can be recovered from its operator.", "quantifier": "all operations, widths, operands, and engines whose methods compute what they are named after", "why_tests_cant": "twenty operations in three parallel tables and two switches for two widths; engines differ in the methods they have", "anchors": ["operatorPointwise_unary.go:unaryCheckApply", "operatorPointwise_unary_gen.go:sf32UnaryOperator.unaryOpType", "operatorPointwise_unary_gen.go:sf64UnaryOperator.unaryOpType", "op_math.go:newElemUnaryOp", "op_math.go:elemUnaryOp.do"]}
