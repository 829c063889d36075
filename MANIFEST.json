{
 "claims": [
  {
   "property": "C01",
   "status": "proved",
   "theorems": [
    "Verif.Graph.ids_dense",
    "Verif.Graph.ids_stable",
    "Verif.Graph.lookup_exact",
    "Verif.Graph.lookup_none",
    "Verif.Graph.lookup_stable"
   ],
   "note": "All histories without removals, all hash functions. Histories with removals are C02."
  },
  {
   "property": "C02",
   "status": "partial",
   "theorems": [
    "Verif.Graph.remove_breaks_lookup",
    "Verif.Graph.remove_lookup_wrong_node",
    "Verif.Graph.remove_then_lookup_partial",
    "Verif.Graph.remove_lookup_below_partial"
   ],
   "note": "False of the code: the position cache byID is not corrected by RemoveNode. Negation proved with a concrete history; the partial theorems cover histories in which no lookup preceded the removal, and, whatever was looked up, all IDs below the removed one."
  },
  {
   "property": "C03",
   "status": "proved",
   "theorems": [
    "Verif.Graph.addNode_canonical",
    "Verif.Graph.addNode_constant",
    "Verif.Graph.addNode_member",
    "Verif.Graph.apply_twice",
    "Verif.Graph.ids_stable"
   ],
   "note": "All histories without removals, all hash functions."
  },
  {
   "property": "C04",
   "status": "partial",
   "theorems": [
    "Verif.Graph.expr_unfold",
    "Verif.Graph.expr_stable",
    "Verif.Graph.addNode_same_expr",
    "Verif.Graph.apply_same_expr",
    "Verif.Graph.collision_substitutes",
    "Verif.Graph.indistinguishable_merge",
    "Verif.Graph.slice_substituted",
    "Verif.Graph.softmax_substituted",
    "Verif.Graph.sparsemax_substituted",
    "Verif.Graph.im2col_substituted",
    "Verif.Graph.dropout_substituted",
    "Verif.Graph.pool_substituted",
    "Verif.Graph.ctc_substituted",
    "Verif.Graph.norm_substituted",
    "Verif.Graph.yolo_substituted",
    "Verif.Graph.random_substituted",
    "Verif.Graph.constant_substituted",
    "Verif.Graph.constant_types_merge",
    "Verif.Graph.different_nodes"
   ],
   "note": "Proved for every graph and operation under the hypothesis that the 32-bit hash of the requested expression does not collide with a member. False of the code without it: slices with bounds equal modulo 256, SoftMax/LogSoftMax, Sparsemax axes, im2col dilations, dropout probabilities, the south and east padding of poolings, CTC reductions and the epsilons of group and batch normalisation are not (fully) written to the hash, nor are the masks, the net size, the number of classes and the threshold of YOLO layers, so such nodes become one. Random nodes count as inputs without a name: all of one type and shape are one node, whatever the distribution. Constants with the same name (what the value prints: 1 of float32 and of float64; or a name of the user) are one. All negations are proved for every checksum and every graph. different_nodes says what is told apart whatever the checksum."
  },
  {
   "property": "C05",
   "status": "proved",
   "theorems": [
    "Verif.Graph.operands_before",
    "Verif.Graph.to_exact",
    "Verif.Graph.edges_agree",
    "Verif.Graph.roots_exact",
    "Verif.Graph.roots_stale"
   ],
   "note": "Reverse index, edge queries and acyclicity for all removal-free histories. Roots are exact the first time they are asked for; roots_stale shows later answers can be stale."
  },
  {
   "property": "C06",
   "status": "proved",
   "theorems": [
    "Verif.Coll.walk_once",
    "Verif.Coll.walk_roots_once"
   ],
   "note": "All acyclic graphs with any sharing."
  },
  {
   "property": "C07",
   "status": "proved",
   "theorems": [
    "Verif.Coll.contains_iff",
    "Verif.Coll.add_spec",
    "Verif.Coll.equals_iff",
    "Verif.Coll.equals_not_symmetric",
    "Verif.Coll.reverse_eq",
    "Verif.Coll.replace_eq",
    "Verif.Coll.remove_eq",
    "Verif.Coll.set_ops",
    "Verif.Coll.set_ops_nodup",
    "Verif.Coll.set_compare"
   ],
   "note": "Nodes.Difference/Intersect delegate to an external package and are not modelled."
  },
  {
   "property": "C08",
   "status": "partial",
   "theorems": [
    "Verif.Tape.interval_exact",
    "Verif.Tape.merge_destroys"
   ],
   "note": "Exact characterisation of computed intervals for every sorted program. Missing: when two nodes are merged, the interval of the surviving node does not get the uses of the other one (merge_destroys)."
  },
  {
   "property": "C09",
   "status": "partial",
   "theorems": [
    "Verif.Tape.registers_safe_partial",
    "Verif.Tape.alive_apart_partial",
    "Verif.Tape.let_destroys",
    "Verif.Tape.merge_destroys"
   ],
   "note": "Proved for all programs without let statements on results and without merged nodes; for those two the statement is false (witnesses proved)."
  },
  {
   "property": "C10",
   "status": "partial",
   "theorems": [
    "Verif.Tape.run_computes_partial",
    "Verif.Tape.alias_free_safe",
    "Verif.Tape.run_wrong",
    "Verif.Tape.run_wrong_start"
   ],
   "note": "Run of the compiled program equals the expression graph, for all programs, inputs, and operation semantics. Missing: merged nodes (there are none in graphs without hash collisions, C109), let statements; Safe assumed when an operation returns its operand's memory (proved otherwise; false in general: run_wrong)."
  },
  {
   "property": "C11",
   "status": "partial",
   "theorems": [
    "Verif.Tape.inputs_untouched_partial",
    "Verif.Tape.alias_free_safe",
    "Verif.Tape.run_wrong"
   ],
   "note": "Same restrictions as C10; false for Add(Reshape(x), y) (run_wrong)."
  },
  {
   "property": "C12",
   "status": "partial",
   "theorems": [
    "Verif.Tape.analyze_iff",
    "Verif.Tape.merge_value_partial",
    "Verif.Tape.merge_destroys"
   ],
   "note": "Nodes are merged exactly if hash codes agree; with sound hash codes merged nodes have equal values. Missing: soundness of hash codes (false, C02/C04) and correctness of the merged program (false: merge_destroys)."
  },
  {
   "property": "C13",
   "status": "partial",
   "theorems": [
    "Verif.Tape.runall_stops",
    "Verif.Tape.run_fails_partial"
   ],
   "note": "The run loop part is proved without restriction; which instruction fails and that earlier values are right has the restrictions of C10."
  },
  {
   "property": "C14",
   "status": "partial",
   "theorems": [
    "Verif.Tape.rerun_partial",
    "Verif.Tape.run_without_reset",
    "Verif.Tape.closures_pile_up"
   ],
   "note": "Rerun after Reset proved with the restrictions of C10; with BindDualValues the closure queue of earlier runs is executed again (closures_pile_up)."
  },
  {
   "property": "C15",
   "status": "partial",
   "theorems": [
    "Verif.AD.unary_diff_partial",
    "Verif.AD.unary_covers",
    "Verif.AD.log2_wrong",
    "Verif.AD.inverseSqrt_wrong"
   ],
   "note": "log2 and inverseSqrt have wrong gradient expressions (negations proved); all others proved"
  },
  {
   "property": "C16",
   "status": "proved",
   "theorems": [
    "Verif.AD.binary_diff",
    "Verif.AD.binary_partials",
    "Verif.AD.binary_diff_mixed",
    "Verif.AD.pow_base"
   ],
   "note": "power: positive base for both operands, any nonzero base for the base operand"
  },
  {
   "property": "C17",
   "status": "partial",
   "theorems": [
    "Verif.AD.backprop_adjoint",
    "Verif.AD.backprop_succeeds",
    "Verif.AD.grad_correct",
    "Verif.AD.grad_partial_derivatives",
    "Verif.AD.grad_succeeds_iff",
    "Verif.AD.gradT_correct",
    "Verif.AD.gradT_succeeds_iff",
    "Verif.AD.uTOp_good_partial",
    "Verif.AD.bTOp_good",
    "Verif.AD.matMulTOp_good",
    "Verif.AD.matVecTOp_good",
    "Verif.AD.vecDotTOp_good",
    "Verif.AD.tensordotTOp_good",
    "Verif.AD.sumTOp_good",
    "Verif.AD.sliceTOp_good",
    "Verif.AD.reshapeTOp_good",
    "Verif.AD.transposeTOp_good",
    "Verif.AD.broadcastTOp_good",
    "Verif.AD.byIndicesTOp_good",
    "Verif.AD.upsampleTOp_good",
    "Verif.AD.concatTOp_good",
    "Verif.AD.softTOp_good_partial",
    "Verif.AD.maxTOp_good_partial",
    "Verif.AD.tied_gradient",
    "Verif.AD.im2colTOp_good",
    "Verif.AD.cmpTOp_good",
    "Verif.AD.maxPoolTOp_fine_partial",
    "Verif.AD.cnn_gradient_partial",
    "Verif.AD.bnTOp_good",
    "Verif.AD.gnTOp_good_partial",
    "Verif.AD.betweenTOp_good",
    "Verif.AD.batchTOp_good",
    "Verif.AD.attention_gradient",
    "Verif.AD.sparseTOp_good_partial",
    "Verif.AD.sparseSym_of"
   ],
   "note": "the algorithm for arbitrary ops with correct SymDiff; end to end for graphs of scalar operations and for graphs of tensor operations (values of all ranks, any sharing), with the listed operations shown to fit wherever their own gradient is right; cnn_gradient_partial applies it to a convolution, rectifier, max pooling and dense layer at parameters where no decision changes nearby, attention_gradient to multi-head self attention for all parameters; left out: operations whose SymDiff is wrong (log2, inverseSqrt, ties of max and of min/max of two tensors, repeat on its own, column softmax, outer product, average pooling, dropout, group normalisation of 264 elements or more), those without one (diag, global average pooling), ties of sparsemax with the threshold, and the CTC loss, whose gradient is that of normalised probabilities only (C74)"
  },
  {
   "property": "C18",
   "status": "partial",
   "theorems": [
    "Verif.AD.second_grad_partial",
    "Verif.AD.second_grad_wrong",
    "Verif.AD.grad_again",
    "Verif.AD.backprop_leaves",
    "Verif.AD.backprop_again"
   ],
   "note": "false when the costs share nodes (negation proved); proved when they share no node between cost and inputs, and for the same request again"
  },
  {
   "property": "C19",
   "status": "partial",
   "theorems": [
    "Verif.Stab.unary_rewrite_partial",
    "Verif.Stab.binary_rewrite",
    "Verif.Stab.product_rewrite_wrong",
    "Verif.Stab.logsoftmax_product_wrong"
   ],
   "note": "All stabilization rewrites proved value-preserving over the reals wherever the requested operation is defined. Log of a product with a softmax factor only when the other factor neither depends on that softmax nor is itself rewritten destructively and the flag is not yet log: outside that the code is wrong, two witnesses."
  },
  {
   "property": "C20",
   "status": "partial",
   "theorems": [
    "Verif.Stab.held_nodes_kept_partial",
    "Verif.Stab.log_releases_operand",
    "Verif.Stab.log_changes_softmax"
   ],
   "note": "All builders except Log of 1+x, 1-x, softmax and products with softmax leave every existing node unchanged. For Log of 1+x / 1-x and of softmax the property is false in the code: proved that the operand is always released resp. always becomes its own logarithm."
  },
  {
   "property": "C21",
   "status": "partial",
   "theorems": [
    "Verif.Lisp.Tensor.lisp_tensor_gradient",
    "Verif.Lisp.Tensor.lTied_gradient",
    "Verif.Lisp.Tensor.lMatMul_adds",
    "Verif.Lisp.Tensor.lMatVec_adds",
    "Verif.Lisp.Tensor.lVecDot_adds",
    "Verif.Lisp.Tensor.lBatched_adds",
    "Verif.Lisp.Tensor.lSum_adds",
    "Verif.Lisp.Tensor.lSlice_adds",
    "Verif.Lisp.Tensor.lTranspose_adds",
    "Verif.Lisp.Tensor.lReshape_adds_partial",
    "Verif.Lisp.Tensor.lSoft_adds_partial",
    "Verif.Lisp.Tensor.lUn_adds_partial",
    "Verif.Lisp.Tensor.lBin_adds_partial",
    "Verif.Lisp.Tensor.lRepeat_adds_partial",
    "Verif.Lisp.Tensor.lConcat_adds_partial",
    "Verif.Lisp.Tensor.lTensordot_adds_partial",
    "Verif.Lisp.lisp_sums_partial",
    "Verif.Lisp.lisp_gradient_partial",
    "Verif.Lisp.runAll_spec",
    "Verif.Lisp.doDiff_step",
    "Verif.Lisp.runAll_succeeds",
    "Verif.Lisp.scalar_counted_twice",
    "Verif.Lisp.reshape_overwrites",
    "Verif.Lisp.inverseSqrt_no_gradient",
    "Verif.Lisp.pow_fails",
    "Verif.Lisp.Tensor.outer_dodiff_fails",
    "Verif.Lisp.Tensor.outer_dodiff_one",
    "Verif.Lisp.Tensor.concat_dodiff_lost",
    "Verif.Shape.row_col_lost",
    "Verif.Lisp.Tensor.lisp_tensor_seeds"
   ],
   "note": "lisp_tensor_gradient: for all graphs of tensor operations, if every operation has the right gradient and its DoDiff adds it (operands whose derivative is overwritten having no other user before), a run leaves in every input the gradient of the sum of the roots, in real arithmetic. The *_adds theorems show which operations do: matrix, matrix-vector, inner and batched products, sums over axes, slices, transpositions, softmax, unary functions but inverseSqrt, arithmetic, repetitions, reshapes, concatenations along the first axis and contractions, each under the conditions stated; lTied_gradient is a classifier with tied weights of every size. Refuted: a scalar combined with a tensor or the operand of a reshape that has another user, inverseSqrt, powers tensor^scalar (the run fails), outer products (fail or are wrong), concatenations of single rows (gradient lost) and along other axes (C38), the column in a contraction of a row with a column (gradient lost, C42), repetitions of unit axes of rank three (C60). Float rounding is not covered."
  },
  {
   "property": "C22",
   "status": "partial",
   "theorems": [
    "Verif.Lisp.rerun_partial",
    "Verif.Lisp.first_run",
    "Verif.Lisp.run_without_reset",
    "Verif.Lisp.reset_runs_last",
    "Verif.Lisp.rerun_wrong",
    "Verif.Lisp.rerun_stale"
   ],
   "note": "Refuted: Reset sets the forward counter to the last node, so RunAll after Reset executes the last node only, for every graph with two or more nodes and any number of repetitions; holds for single-node graphs and for the first run."
  },
  {
   "property": "C23",
   "status": "partial",
   "theorems": [
    "Verif.Bitmap.bitmap_refines_set",
    "Verif.Bitmap.bitmap_rejects_out_of_range",
    "Verif.Bitmap.blocksWithZero_first_partial",
    "Verif.Bitmap.blocksWithZero_not_atleast"
   ],
   "note": "Set semantics and range checks are proved in full. The zero-run search is off by one against its documentation: the negation is proved, and the partial theorem says what it does compute."
  },
  {
   "property": "C24",
   "status": "proved",
   "theorems": [
    "Verif.Shape.pattern_exact",
    "Verif.Shape.pattern_mem",
    "Verif.Shape.on_sorted",
    "Verif.Shape.right_axis_four_is_left_axis_zero",
    "Verif.Shape.left_axis_four_dropped",
    "Verif.Shape.pattern_not_exact"
   ],
   "note": "For the documented limit of four axes. Past the limit the code misreports silently (negations)."
  },
  {
   "property": "C25",
   "status": "partial",
   "theorems": [
    "Verif.Shape.broadcast_correct_partial",
    "Verif.Shape.auto_correct_partial",
    "Verif.Shape.broadcast_mixed_rank_wrong",
    "Verif.Shape.broadcast_outer_rejected",
    "Verif.Shape.broadcast_not_correct",
    "Verif.Shape.auto_rank_five_wrong"
   ],
   "note": "Proved for operands of the target's rank and for one-sided broadcasting (also of operands lacking the axes); false of the code when both sides are broadcast and one lacks axes."
  },
  {
   "property": "C26",
   "status": "partial",
   "theorems": [
    "Verif.BFC.held_disjoint_partial",
    "Verif.BFC.code_sound_partial",
    "Verif.BFC.repaired_sound",
    "Verif.BFC.code_not_conserved",
    "Verif.BFC.code_crashes"
   ],
   "note": "For every history of the code as it is, held ranges are disjoint, inside the reservation and aligned (held_disjoint_partial). Disjointness from the free list is false of the code (code_not_conserved: coalesce leaves a stale prev pointer) and proved whenever no stale pointer was left (code_sound_partial) and for the program with the pointer reset (repaired_sound)."
  },
  {
   "property": "C27",
   "status": "partial",
   "theorems": [
    "Verif.BFC.code_sound_partial",
    "Verif.BFC.held_disjoint_partial",
    "Verif.BFC.repaired_sound",
    "Verif.BFC.repaired_oom",
    "Verif.BFC.free_unknown",
    "Verif.BFC.code_not_conserved",
    "Verif.BFC.code_crashes",
    "Verif.BFC.code_not_sound"
   ],
   "note": "Alignment and the no-op of freeing an unknown address hold for the code in all histories. Conservation and sortedness are false of the code (code_not_conserved, code_crashes) and proved as long as no merge has left a stale pointer (code_sound_partial), and always for the repaired program, which also never panics (repaired_sound). Addresses are unbounded integers."
  },
  {
   "property": "C28",
   "status": "proved",
   "theorems": [
    "Verif.XVM.values_correct",
    "Verif.XVM.returned_values",
    "Verif.XVM.schedule_independent",
    "Verif.XVM.run_complete"
   ],
   "note": "All interleavings, with or without cancellation and failing operations, any leftovers of earlier runs, for graphs whose operations' arity is their number of operands. Acyclicity is not even needed for the values. Values are immutable in the model."
  },
  {
   "property": "C29",
   "status": "proved",
   "theorems": [
    "Verif.XVM.no_deadlock",
    "Verif.XVM.step_left",
    "Verif.XVM.executions_bounded",
    "Verif.XVM.run_complete",
    "Verif.XVM.arity_hangs",
    "Verif.XVM.empty_hangs"
   ],
   "note": "Under the property's own precondition (arity equals number of operands) and for graphs with at least one node. Outside it, arity_hangs shows that a tensor constant, whose declared arity is 1, makes Run hang, and empty_hangs that Run hangs on the empty graph, where no node is left that could report."
  },
  {
   "property": "C30",
   "status": "partial",
   "theorems": [
    "Verif.Solver.vanilla_dense",
    "Verif.Solver.vanilla_scalar_partial",
    "Verif.Solver.vanilla_lift_partial",
    "Verif.Solver.vanilla_l1_zero",
    "Verif.Solver.vanilla_clip_zero",
    "Verif.Solver.stepAll_ok",
    "Verif.Solver.stepAll_error",
    "Verif.Solver.step_zeroes",
    "Verif.Solver.momentum_dense_partial",
    "Verif.Solver.momentum_first_unregularised",
    "Verif.Solver.momentum_no_decay",
    "Verif.Solver.momentum_scalar_is_vanilla",
    "Verif.Solver.momentum_lift_fails",
    "Verif.Solver.rmsprop_dense",
    "Verif.Solver.rmsprop_lift_partial",
    "Verif.Solver.rmsprop_scalar_unclipped",
    "Verif.Solver.adagrad_dense",
    "Verif.Solver.adagrad_scalar_forgets"
   ],
   "note": "Proved for Vanilla (tensors, and scalars with a nonzero weight or no l1), RMSProp and AdaGrad on tensors, Momentum on tensors without penalties, for any number of steps. Refuted: an l1 penalty moves a zero scalar but not a zero tensor element; clip = 0 freezes scalars only; Momentum regularises the velocity instead of the weights and forgets the velocity of scalars; RMSProp never clips scalars; AdaGrad forgets the cache of scalars."
  },
  {
   "property": "C31",
   "status": "partial",
   "theorems": [
    "Verif.Solver.adam_dense",
    "Verif.Solver.adam_lift_partial",
    "Verif.Solver.adam_constant",
    "Verif.Solver.ema_bound",
    "Verif.Solver.ema_sq_nonneg",
    "Verif.Solver.ema_const"
   ],
   "note": "Moments and bias-corrected update in closed form after any number of steps, any gradients, for tensors. Missing: scalars agree only for nonzero weights under an l1 penalty and for a positive clip (the same differences as refuted for Vanilla)."
  },
  {
   "property": "C32",
   "status": "proved",
   "theorems": [
    "Verif.NN.im2col_exact",
    "Verif.NN.col2im_exact",
    "Verif.NN.im2col_adjoint",
    "Verif.NN.im2col_gradient",
    "Verif.NN.im2col_doDiff_overwrites",
    "Verif.NN.retLen_exact",
    "Verif.NN.retLen_phantom"
   ],
   "note": "For contiguous inputs, all sizes, paddings, strides and dilations, and every order of the goroutines. im2col_doDiff_overwrites and retLen_phantom record two defects outside the statement: the define-by-run derivative is overwritten, and a kernel that does not fit may still yield one output position."
  },
  {
   "property": "C33",
   "status": "partial",
   "theorems": [
    "Verif.NN.conv2d_exact_partial",
    "Verif.NN.conv1d_exact_partial",
    "Verif.NN.conv2d_mismatch",
    "Verif.NN.conv2d_rejects",
    "Verif.NN.conv2d_defaults",
    "Verif.NN.retLen_exact",
    "Verif.NN.retLen_phantom",
    "Verif.AD.conv_part",
    "Verif.AD.conv_gradient_partial"
   ],
   "note": "Holds for filters whose shape fits the kernel shape. Missing: the kernel shape is never compared with the filter (conv2d_mismatch gives the exact result then), and kernels that do not fit the padded image (retLen_phantom). conv_gradient_partial: the graph that Conv2d builds, differentiated by Grad, yields the textbook gradients of filter and image."
  },
  {
   "property": "C34",
   "status": "partial",
   "theorems": [
    "Verif.NN.pool_max_partial",
    "Verif.NN.pool_gradient_partial",
    "Verif.NN.pool_derivative_partial",
    "Verif.NN.pool_scan",
    "Verif.NN.pool_height",
    "Verif.NN.pool_width",
    "Verif.NN.pool_explicit_wrong",
    "Verif.NN.pool_empty_window_panics",
    "Verif.NN.pool_corner_panics",
    "Verif.NN.pool_doDiff_overwrites",
    "Verif.NN.pool_routing",
    "Verif.AD.maxPoolTOp_fine_partial"
   ],
   "note": "Holds with symmetric padding when every window holds a pixel and all inputs exceed -maxFloat. Refuted for explicit paddings (wrong offset), for windows in the padding (output -maxFloat, gradient panics) and for define-by-run (overwrites)."
  },
  {
   "property": "C35",
   "status": "partial",
   "theorems": [
    "Verif.LinAlg.matMul_adjoint",
    "Verif.LinAlg.matVec_adjoint",
    "Verif.LinAlg.vecDot_adjoint",
    "Verif.LinAlg.batched_adjoint",
    "Verif.LinAlg.outer_deriv",
    "Verif.LinAlg.outer_sizes_wrong",
    "Verif.LinAlg.outer_values",
    "Verif.LinAlg.outer_wrong",
    "Verif.AD.batchRun_at",
    "Verif.Lisp.Tensor.outer_dodiff_fails",
    "Verif.Lisp.Tensor.outer_dodiff_one"
   ],
   "note": "Proved for matrix product with every combination of transposition flags, matrix-vector, vector dot and batched products. Refuted for the outer product: its gradient has the wrong sizes whenever the vectors have more than one element, and wrong values; its define-by-run gradient fails or, for one element each, is wrong."
  },
  {
   "property": "C36",
   "status": "proved",
   "theorems": [
    "Verif.NN.sparsemax_projection",
    "Verif.NN.sparsemax_exact"
   ],
   "note": "Default axis (the last one). The order in which sort.Slice arranges equal values does not matter; it is assumed to sort."
  },
  {
   "property": "C37",
   "status": "proved",
   "theorems": [
    "Verif.LinAlg.incrSlices_next",
    "Verif.LinAlg.visits_all",
    "Verif.LinAlg.visits_once",
    "Verif.LinAlg.batchedMatMul_spec"
   ],
   "note": "For batch axes of positive size."
  },
  {
   "property": "C38",
   "status": "partial",
   "theorems": [
    "Verif.Shape.concat_unconcat_partial",
    "Verif.Shape.unconcat_shapes",
    "Verif.Shape.unconcat_rank",
    "Verif.Shape.unconcat_panics",
    "Verif.Shape.slice_spec",
    "Verif.Shape.concat_grad",
    "Verif.Shape.concat_doDiff_wrong",
    "Verif.Lisp.Tensor.lConcat_adds_partial",
    "Verif.Lisp.Tensor.concat_dodiff_lost"
   ],
   "note": "The symbolic gradient of Concat is proved for all operands. The round trip is proved when no axis and no part has one element, and refuted for every other tensor (rank lost). The define-by-run gradient is proved along the first axis for operands of at least two rows, or of two axes; operands with a single row and another number of axes silently lose their gradient; it is refuted for every axis but the first."
  },
  {
   "property": "C39",
   "status": "partial",
   "theorems": [
    "Verif.Shape.transpose_spec",
    "Verif.Shape.transpose_inverse",
    "Verif.Shape.transpose_adjoint",
    "Verif.Shape.invPattern_get",
    "Verif.Shape.transpose_node_partial",
    "Verif.Shape.transpose_default_partial",
    "Verif.Shape.transpose_scalar_panics"
   ],
   "note": "Proved for every permutation and every rank of at least one; Transpose of a scalar without axes panics."
  },
  {
   "property": "C40",
   "status": "partial",
   "theorems": [
    "Verif.Shape.reshape_ok_iff",
    "Verif.Shape.inferred_unique",
    "Verif.Shape.reshape_preserves_partial",
    "Verif.Shape.reshape_panic_iff",
    "Verif.Shape.reshape_scalar_unchecked"
   ],
   "note": "Exact for operands with at least one axis (and the panicking requests characterised); a scalar operand is not checked (negation)."
  },
  {
   "property": "C41",
   "status": "partial",
   "theorems": [
    "Verif.Shape.elem_shape_iff",
    "Verif.Shape.elem_vector_column_shape",
    "Verif.Shape.elem_ones_run_fails",
    "Verif.Shape.reduceShape_spec",
    "Verif.Shape.sum_value",
    "Verif.Shape.max_value",
    "Verif.Shape.reduce_empty_axis",
    "Verif.Shape.matMul_shape",
    "Verif.Shape.matVec_shape_partial",
    "Verif.Shape.matVec_accepted",
    "Verif.Shape.vecDot_shape",
    "Verif.Shape.outer_shape",
    "Verif.Shape.batched_shape_partial",
    "Verif.Shape.batched_accepted",
    "Verif.Shape.repeat_shape",
    "Verif.Shape.repeat_shape_new",
    "Verif.Shape.repeat_later_axis"
   ],
   "note": "Proved for elementwise operations (exactly when the inferred shape is the computed one), reductions, matrix, inner, outer and batched products (whenever the product can be computed) and Repeat along axes that exist. Refuted: a vector with a column vector, tensors of ones of different rank, empty axes, matrix-vector and batched products that are accepted but cannot be computed, one repetition of a scalar or of a vector along a new axis, vectors repeated along later axes. Missing: slice, concat and transpose, whose inferred and computed shapes both come from the tensor library."
  },
  {
   "property": "C42",
   "status": "partial",
   "theorems": [
    "Verif.Shape.tensordot_ok",
    "Verif.Shape.inferDot_shape",
    "Verif.Shape.coSort_eq",
    "Verif.Shape.dotPattern_perm",
    "Verif.Shape.tensordot_grad_fst_partial",
    "Verif.Shape.tensordot_grad_snd_partial",
    "Verif.Shape.dotDiff_iff",
    "Verif.Shape.tensordot_grad_fst_sound",
    "Verif.Shape.tensordot_grad_snd_sound",
    "Verif.Shape.tensordot_unit_vector",
    "Verif.Shape.tensordot_column",
    "Verif.Shape.tensordot_one_by_one",
    "Verif.Shape.dotDoDiff_symbolic",
    "Verif.Shape.dotDoDiff_fst_partial",
    "Verif.Shape.dotDoDiff_snd_partial",
    "Verif.Shape.row_col_lost",
    "Verif.Shape.row_col_wrong",
    "Verif.Shape.row_col_row",
    "Verif.Shape.col_col_fst",
    "Verif.Shape.tensordotInts_ok",
    "Verif.Shape.tensordotInts_nat",
    "Verif.Shape.tensordot_negative"
   ],
   "note": "Tensordot succeeds exactly for contractible operands; whenever tensordotOp.SymDiff succeeds its result is the gradient with the operand's axes (all ranks and axis lists, both operands); exact set of shapes for which it succeeds. It fails for accepted operands with only unit axes, for matrices with a unit axis treated as vectors and for 1x1 results (refutations). tensordotOp.DoDiff adds the same gradient wherever SymDiff succeeds, and is also right for a column contracted with a column. Refuted for DoDiff: in the product of a 1xn row and an nx1 column (n not 1) the column's gradient is lost without an error, because the error of Add is dropped. With integer axes Tensordot succeeds exactly for contractible axes that are not negative; a negative axis panics instead of giving an error (refutation); tensor.Contract, MatMul, MulScalar, T and Add are assumed."
  },
  {
   "property": "C43",
   "status": "partial",
   "theorems": [
    "Verif.NN.logSumExp_partial",
    "Verif.NN.logSumExp_wrong",
    "Verif.NN.logSumExp_rejects",
    "Verif.NN.logSumExp_row_wrong",
    "Verif.NN.logSumExp_scalar"
   ],
   "note": "Refuted: the code computes log(sum exp(x-m) + m) in place of log(sum exp(x-m)) + m, and sums the result along the axis again. Proved for vectors with maximum 0."
  },
  {
   "property": "C44",
   "status": "proved",
   "theorems": [
    "Verif.NN.rectify_value",
    "Verif.NN.leakyRelu_value",
    "Verif.NN.binaryXent_value",
    "Verif.NN.mish_value",
    "Verif.Shape.mean_value",
    "Verif.NN.norm2_value"
   ],
   "note": "For all real inputs and all shapes without empty axes (Mean, Norm)."
  },
  {
   "property": "C45",
   "status": "partial",
   "theorems": [
    "Verif.Shape.keepDims_correct_partial",
    "Verif.Shape.shapeEq_exact",
    "Verif.Shape.keepDims_rank_lost",
    "Verif.Shape.keepDims_not_rank"
   ],
   "note": "Proved whenever the soft vector equality of the tensor library does not identify shapes of different rank; false of the code otherwise (negation)."
  },
  {
   "property": "C46",
   "status": "partial",
   "theorems": [
    "Verif.Graph.clone_separate",
    "Verif.Graph.clone_nodes",
    "Verif.Graph.clone_lookup",
    "Verif.Graph.clone_to",
    "Verif.Graph.clone_tables",
    "Verif.Graph.clone_canon",
    "Verif.Graph.clone_val",
    "Verif.Graph.clone_links",
    "Verif.Graph.clone_roots_partial",
    "Verif.Graph.clone_roots_lost"
   ],
   "note": "Everything but the roots is preserved. The roots are kept only if Roots was asked before cloning; otherwise the clone reports none (clone_roots_lost)."
  },
  {
   "property": "C47",
   "status": "proved",
   "theorems": [
    "Verif.Graph.exact_nodes",
    "Verif.Graph.exact_roots",
    "Verif.Graph.exact_lookup",
    "Verif.Graph.compile_accepts",
    "Verif.Graph.subgraph_to_outside",
    "Verif.Graph.subgraphRoots_not_closed",
    "Verif.Graph.subgraph_single",
    "Verif.Graph.subgraph_single_not_closed"
   ],
   "note": "The exact subgraph and CompileFunction's input check. The other subgraph functions do not do what they document; the three refutations record it."
  },
  {
   "property": "C48",
   "status": "proved",
   "theorems": [
    "Verif.AD.reduceAdd_eval",
    "Verif.AD.reduceMul_eval",
    "Verif.AD.reduce_total"
   ],
   "note": ""
  },
  {
   "property": "C49",
   "status": "partial",
   "theorems": [
    "Verif.Graph.remove_forgets",
    "Verif.Graph.remove_keeps",
    "Verif.Graph.remove_leaves_edges",
    "Verif.Graph.remove_breaks_canonical",
    "Verif.Graph.remove_root_cached"
   ],
   "note": "Proved: the node leaves the list, the hash index, its reverse edge entry and uncached roots, and the others keep order, content and users. False of the code (negations proved): the removed node stays listed as user of its operands, other nodes with the same hash are not found again, cached roots still list it."
  },
  {
   "property": "C50",
   "status": "partial",
   "theorems": [
    "Verif.Solver.option_sets_partial",
    "Verif.Solver.option_switches_on_partial",
    "Verif.Solver.option_only",
    "Verif.Solver.option_inert",
    "Verif.Solver.adagrad_ignores_options",
    "Verif.Solver.options_commute"
   ],
   "note": "Proved for every solver type but AdaGrad; refuted for AdaGrad: no option list changes anything in it."
  },
  {
   "property": "C51",
   "status": "proved",
   "theorems": [
    "Verif.Solver.bb_step",
    "Verif.Solver.bb_first",
    "Verif.Solver.bb_clip",
    "Verif.Solver.bb_quadratic"
   ],
   "note": "Optimality of the learn rate over all nodes together, update, zeroed gradients, clip bound, two-step convergence on quadratics."
  },
  {
   "property": "C52",
   "status": "partial",
   "theorems": [
    "Verif.Solver.adamw_never_moves",
    "Verif.Solver.adamw_moment",
    "Verif.Solver.adamw_scalar_panics"
   ],
   "note": "Refuted: the weights of the model never change, for all inputs; the decay rates of the moments are 1 - beta^t in place of beta; scalars panic."
  },
  {
   "property": "C53",
   "status": "partial",
   "theorems": [
    "Verif.NN.sparsemax_exact",
    "Verif.NN.sparsemax_axis0",
    "Verif.NN.sparsemax_axis0_wrong",
    "Verif.NN.sparsemax_axis_rejects"
   ],
   "note": "Holds for the default axis. Refuted for axis 0 of a matrix: the result is laid out transposed. Every explicit axis is rejected for tensors whose rank is not two."
  },
  {
   "property": "C54",
   "status": "partial",
   "theorems": [
    "Verif.NN.sparsemax_derivative",
    "Verif.NN.sparsemaxDiff_rows",
    "Verif.NN.sparsemaxDiff_rank",
    "Verif.NN.sparsemax_doDiff_fails"
   ],
   "note": "The symbolic gradient of matrices is the derivative. Refuted for other ranks (the gradient operation fails) and define-by-run (asks for two inputs)."
  },
  {
   "property": "C55",
   "status": "partial",
   "theorems": [
    "Verif.Shape.sum_value",
    "Verif.Shape.sum_gradient",
    "Verif.Shape.sum_doDiff",
    "Verif.Shape.sum_doDiff_reshapes_result"
   ],
   "note": "Value, symbolic gradient and define-by-run gradient proved for all ranks and axis lists. Refuted: define-by-run leaves the gradient of the result alone (it is reshaped in place)."
  },
  {
   "property": "C56",
   "status": "partial",
   "theorems": [
    "Verif.Shape.max_value",
    "Verif.Shape.max_gradient_partial",
    "Verif.Shape.max_ties_no_subgradient",
    "Verif.Shape.max_axis_four_fails"
   ],
   "note": "Value proved; gradient proved without ties for axes below 4. Refuted at ties (not a subgradient) and for axes from the fifth on (cannot be built)."
  },
  {
   "property": "C57",
   "status": "partial",
   "theorems": [
    "Verif.NN.norm2_value",
    "Verif.NN.norm_even_partial",
    "Verif.NN.norm_odd_wrong"
   ],
   "note": "Proved for even p; refuted for every odd p (no absolute value is taken)."
  },
  {
   "property": "C58",
   "status": "partial",
   "theorems": [
    "Verif.NN.softmax_value",
    "Verif.NN.softmax_axis",
    "Verif.NN.softmax_gradient_partial",
    "Verif.NN.softmax_column_wrong",
    "Verif.NN.softmax_doDiff",
    "Verif.NN.softmax_doDiff_overwrites"
   ],
   "note": "Value, axis and gradient proved for everything but column vectors without explicit axis, for which the gradient is refuted at every input (the backward kernel gets another axis). Define-by-run overwrites the gradient of the result (refuted)."
  },
  {
   "property": "C59",
   "status": "partial",
   "theorems": [
    "Verif.NN.between_value",
    "Verif.NN.minmax_gradient",
    "Verif.NN.minmax_subgradient",
    "Verif.NN.minmaxAutoDiff_max_swapped",
    "Verif.NN.minmaxAutoDiff_min_lost",
    "Verif.NN.minmaxAutoDiff_wrong"
   ],
   "note": "Value and symbolic gradients proved, ties included. Define-by-run refuted: the mask is a less-than comparison, so the gradient goes to the wrong operand."
  },
  {
   "property": "C60",
   "status": "partial",
   "theorems": [
    "Verif.Shape.repeat_grad",
    "Verif.Shape.repeat_gradient_partial",
    "Verif.Shape.repeat_gradient_rank",
    "Verif.Shape.repeat_gradient_wrong",
    "Verif.Shape.repeat_dodiff",
    "Verif.Shape.repeat_dodiff_unit_partial",
    "Verif.Shape.repeat_dodiff_fails"
   ],
   "note": "The gradient is characterised for all ranks. Define-by-run is right for axes with more than one element at every rank, and for unit axes up to two axes. Missing because false of the code: the built gradient always lacks the axis (repeat_gradient_rank), for axes with more than one element it even sums different elements together and has too few (repeat_gradient_wrong), and define-by-run fails for unit axes of tensors with three axes or more (repeat_dodiff_fails)."
  },
  {
   "property": "C61",
   "status": "proved",
   "theorems": [
    "Verif.Shape.undo_sum",
    "Verif.Shape.broadcast_grad",
    "Verif.Shape.broadcast_grad_pattern"
   ],
   "note": "For all ascending axis lists (hence all patterns), operands with unit axes or without."
  },
  {
   "property": "C62",
   "status": "partial",
   "theorems": [
    "Verif.Shape.slice_grad",
    "Verif.Shape.slice_dodiff",
    "Verif.Shape.step_slice_grad",
    "Verif.Shape.step_dodiff",
    "Verif.Shape.stepSlice_one",
    "Verif.Shape.stepIncr_one",
    "Verif.Shape.sliceIncr_grad",
    "Verif.Shape.sliceIncr_gradient_wrong",
    "Verif.Shape.slice_hessian_wrong",
    "Verif.Shape.incr_dodiff_second",
    "Verif.Shape.incr_dodiff_first_wrong",
    "Verif.Shape.incr_dodiff_scalar_fails",
    "Verif.Shape.incr_dodiff_scalar_lost"
   ],
   "note": "First derivatives proved for all ranks, axes, nonempty ranges and steps, whatever number of elements the tensor library keeps (step_slice_grad, step_dodiff; with step 1 these are the slices of C38, stepSlice_one, stepIncr_one). Second derivatives are false of the code: the increment declares the wrong operand differentiable (sliceIncr_gradient_wrong, slice_hessian_wrong). Define-by-run through the increment: what is added to the operand incremented by is its gradient if that is a tensor (incr_dodiff_second); the first operand, on which the result does not depend, gets the whole incoming gradient (incr_dodiff_first_wrong); a scalar increment makes it fail (incr_dodiff_scalar_fails) or loses the gradient (incr_dodiff_scalar_lost)."
  },
  {
   "property": "C63",
   "status": "partial",
   "theorems": [
    "Verif.Shape.reshape_grad",
    "Verif.Shape.reshape_dodiff_partial",
    "Verif.Shape.reshape_dodiff_overwrites",
    "Verif.Shape.reshape_dodiff_not_added",
    "Verif.Shape.reshape_dodiff_result"
   ],
   "note": "The built gradient is proved. Define-by-run is false of the code: it replaces the derivative held and reshapes the derivative of the result in place (negations proved)."
  },
  {
   "property": "C64",
   "status": "proved",
   "theorems": [
    "Verif.NN.upsampleDo_spec",
    "Verif.NN.upsample2D_spec",
    "Verif.NN.upsampleDiffDo_spec",
    "Verif.NN.upsample_grad"
   ],
   "note": ""
  },
  {
   "property": "C65",
   "status": "partial",
   "theorems": [
    "Verif.NN.avgPool_value",
    "Verif.NN.avgPool_mean_partial",
    "Verif.NN.avgPool_wrong_iff",
    "Verif.NN.avgPool_explicit_wrong",
    "Verif.NN.averagePool1D_is_max",
    "Verif.NN.avgPoolDiff_zero",
    "Verif.NN.noFilter_stride2",
    "Verif.NN.avgPool_grad_wrong",
    "Verif.NN.avgPoolDiff_fresh"
   ],
   "note": "The value computed is characterised exactly: the sum over the window divided by the width of the image, so it is the mean exactly when the kernel area equals the image width or the sum is 0 (symmetric padding). Refuted: other divisors, asymmetric padding, AveragePool1D (is a maximum), the gradient (goes to the last pixel of each window, and is 0 for whole regions)."
  },
  {
   "property": "C66",
   "status": "partial",
   "theorems": [
    "Verif.NN.dropout_value",
    "Verif.NN.dropout_unbiased",
    "Verif.NN.dropout_prealloc_panics",
    "Verif.NN.dropoutDeriv_spec",
    "Verif.NN.dropoutDiff_spec",
    "Verif.NN.dropout_grad_iff",
    "Verif.NN.dropout_grad_half_partial",
    "Verif.NN.dropout_zero_grad"
   ],
   "note": "Value and mean proved. The gradient divides by the dropping probability and is right exactly where the incoming gradient is 0, or, while training with a probability other than 0, where the element is dropped or is not 0 and the probability is one half. With a preallocated result dropout always panics while training."
  },
  {
   "property": "C67",
   "status": "proved",
   "theorems": [
    "Verif.NN.globalAveragePool_spec"
   ],
   "note": ""
  },
  {
   "property": "C68",
   "status": "partial",
   "theorems": [
    "Verif.NN.updateStats_spec",
    "Verif.NN.bn_value",
    "Verif.NN.bn_value_eval",
    "Verif.NN.bn_normalised",
    "Verif.NN.bn_grad",
    "Verif.NN.bn_prealloc_wrong_iff",
    "Verif.NN.bn_grad_eval_iff",
    "Verif.NN.bn_dodiff_panics",
    "Verif.NN.bn32_training",
    "Verif.NN.bn32_eval",
    "Verif.NN.bn32_grad_eval_iff",
    "Verif.NN.bn32_after_training"
   ],
   "note": "Proved for all sizes and schedules: values in both modes without a preallocated result, the running statistics, and that the training gradient is the derivative. Refuted: with a preallocated result the operand is ignored (neither machine offers one after Reset, Verif.Tape.no_prealloc); outside training the gradient for images of more than one pixel leaves out the running variance (exact condition), and with float32 it uses the variance of the last training batch instead, since that branch keeps the saved statistics (bn32_grad_eval_iff, bn32_after_training); define-by-run panics. The scaling and shifting by Auto broadcasting is not part of the model."
  },
  {
   "property": "C69",
   "status": "partial",
   "theorems": [
    "Verif.NN.rowwiseMoments_small",
    "Verif.NN.rowwiseMoments_wrong",
    "Verif.NN.rowwiseMoments_iff",
    "Verif.NN.gn_value_partial",
    "Verif.NN.gn_grad_partial",
    "Verif.NN.gn_large_wrong",
    "Verif.NN.gn_indivisible",
    "Verif.NN.gn_dodiff_wrong"
   ],
   "note": "Proved for groups of up to 263 elements and divisible channels: value and symbolic gradient, for all schedules. Refuted: the moments are right for all inputs exactly below 264 elements (a mean is passed where the second moment belongs); an indivisible number of channels leaves elements unwritten; the define-by-run derivative ignores the incoming gradient and overwrites it."
  },
  {
   "property": "C70",
   "status": "partial",
   "theorems": [
    "Verif.Shape.byIndices_value",
    "Verif.Shape.byIndices_shape",
    "Verif.Shape.byIndices_ok_iff",
    "Verif.Shape.byIndices_grad",
    "Verif.Shape.byIndices_axis_panics",
    "Verif.Shape.byIndices_dodiff_fails"
   ],
   "note": "Value, inferred shape, rejection of indices off the axis, and the symbolic gradient (repeated indices included) are proved for all operands. Refuted: for an axis the operand does not have, shape inference panics instead of giving an error (byIndices_axis_panics); define-by-run fails whatever the operands, because the gradient operation of arity three is called with two operands (byIndices_dodiff_fails)."
  },
  {
   "property": "C71",
   "status": "partial",
   "theorems": [
    "Verif.Types.applyOp_type",
    "Verif.Types.applyOp_dt",
    "Verif.Types.applyOp_no_scalar",
    "Verif.Types.applyOp_total",
    "Verif.Types.mul_choice",
    "Verif.Types.matMul_any_rank",
    "Verif.Types.sliceIncr_any_dt",
    "Verif.Types.diagFlat_type",
    "Verif.Types.repeat_type",
    "Verif.Types.mul_repeated",
    "Verif.Shape.step_slice_panics"
   ],
   "note": "For 21 kinds of operations with all parameters and operands: the inferred type is the type of a value of the inferred shape, except exactly in four cases that are characterised by an equivalence (applyOp_type); clashing element types and scalars in products are rejected; Mul picks its operation by the ranks when types are right. Refuted: DiagFlat of every tensor has type matrix of tensors (diagFlat_type); a vector repeated along a new axis keeps the type of a vector (repeat_type), so that Mul takes the product of a matrix with it for a matrix-vector product and builds a node of the wrong shape (mul_repeated); elementwise operations on single elements with more axes in the second operand, and reductions with an axis listed twice, get the wrong number of axes (equivalence in applyOp_type, with examples); the number of axes is never checked by unification (matMul_any_rank); incrementing a slice accepts any element type (sliceIncr_any_dt); a slice with a step that leaves one element of a longer range keeps the axis in its type and loses it in its shape, so that building the node panics, and only such slices do (step_slice_panics). Not covered: the gradient operations, Concat, Tensordot, CTC loss and yolo."
  },
  {
   "property": "C72",
   "status": "partial",
   "theorems": [
    "Verif.Types.conv_toInt",
    "Verif.Types.conv_toFloat",
    "Verif.Types.conv_build",
    "Verif.Types.conv_unsupported",
    "Verif.Types.conv_scalar",
    "Verif.Types.conv_toInt_grad",
    "Verif.Types.conv_toFloat_grad"
   ],
   "note": "Values and shape of tensors are right for the supported pairs, and conversions can be built exactly for operands of the right element type. Refuted: conversions between all other pairs, so between the two kinds of floats, can be built but always fail when run (conv_unsupported); a scalar becomes a tensor with one axis although the node is a scalar (conv_scalar); the gradient built for float to int is the incoming gradient although the gradient is zero (conv_toInt_grad); the gradient built for int to float drops fractions and is right exactly for integer gradients (conv_toFloat_grad)."
  },
  {
   "property": "C73",
   "status": "partial",
   "theorems": [
    "Verif.NN.CTC.ctc_nll",
    "Verif.NN.CTC.ctc_loss",
    "Verif.NN.CTC.seqProb_ne_zero_iff",
    "Verif.NN.CTC.ctc_empty_wrong",
    "Verif.NN.CTC.ctc_empty_example",
    "Verif.NN.CTC.ctc_zero_length"
   ],
   "note": "Proved for non-empty targets and positive input lengths: ctc_nll (value of every element, +Inf iff no path), ctc_loss (both reductions), seqProb_ne_zero_iff (which targets are possible). Refuted: for an empty target the sign is wrong (ctc_empty_wrong: right iff the probability is 1; ctc_empty_example: -1 instead of 1) since the shortcut of lines 261-262 stores the log likelihood; an input length of 0 panics (ctc_zero_length). Exact arithmetic over reals extended with the infinities and NaN; rounding is not modelled."
  },
  {
   "property": "C74",
   "status": "partial",
   "theorems": [
    "Verif.NN.CTC.ctc_grad",
    "Verif.NN.CTC.ctc_grad_sum",
    "Verif.NN.CTC.ctc_grad_mean_wrong",
    "Verif.NN.CTC.ctc_mean_example",
    "Verif.NN.CTC.ctc_grad_offset"
   ],
   "note": "ctc_grad gives the value in all cases. Proved a gradient (ctc_grad_sum) for the sum reduction along all curves of normalised probabilities, for full input lengths and non-empty possible targets. Refuted: for the mean reduction the gradient lacks the division by target length and batch size (ctc_grad_mean_wrong, ctc_mean_example: -1 instead of -1/2); as a plain partial derivative in the log probabilities it is off by the probability (ctc_grad_offset); beyond the input length the gradient is -Inf instead of 0, for impossible targets it is NaN, and for empty targets the wrong likelihood is used (ctc_grad)."
  },
  {
   "property": "C75",
   "status": "partial",
   "theorems": [
    "Verif.NN.Yolo.yolo_decodes_partial",
    "Verif.NN.Yolo.yolo_batch_fails",
    "Verif.NN.Yolo.yolo_overwrites"
   ],
   "note": "For one image, all grids, classes, anchors and inputs, if the grid is not larger than the image: the op succeeds with the inferred shape, and the boxes are right exactly if the n-th mask names an anchor of the sizes of the n-th anchor in the list (equivalence). Refuted: masks are ignored otherwise (op_yolo.go 167 indexes with the position of the mask; the usual masks 3,4,5 get anchors 0,1,2); a batch of more than one image always fails; the operand is overwritten although OverwritesInput says it is not. Simplified: masks are not negative, the cut-offs of sigmoid are left out. Assumed: tensor's Reshape, T, Transpose, Slice with steps, and that tensor.Mul rejects different shapes. Training mode: C77."
  },
  {
   "property": "C76",
   "status": "partial",
   "theorems": [
    "Verif.NN.Yolo.iou_pixels",
    "Verif.NN.Yolo.iou_range",
    "Verif.NN.Yolo.iou_comm",
    "Verif.NN.Yolo.iou_self",
    "Verif.NN.Yolo.bestLoop_spec",
    "Verif.NN.Yolo.anchorLoop_spec",
    "Verif.NN.Yolo.boxIous_swapped",
    "Verif.NN.Yolo.best_iou_partial"
   ],
   "note": "The overlap and the choices of the best target and best anchor given the overlaps are proved for all rectangles and lists. Refuted: getBestIOU_f32 passes width and height to rectifyBox_f32 in the wrong order, so that it compares other boxes: for all boxes by boxIous_swapped, and with a box and target that overlap but get overlap 0 (best_iou_partial). Simplified: the target list has a multiple of five elements. Assumed: image.Rect and Intersect."
  },
  {
   "property": "C77",
   "status": "partial",
   "theorems": [
    "Verif.NN.Yolo.train_single_cell",
    "Verif.NN.Yolo.train_boxes_partial",
    "Verif.NN.Yolo.noObject_at",
    "Verif.NN.Yolo.noObject_other",
    "Verif.NN.Yolo.object_outside",
    "Verif.NN.Yolo.coordinates_uncharged",
    "Verif.NN.Yolo.first_box_charged_partial",
    "Verif.NN.Yolo.classes_ignored",
    "Verif.NN.Yolo.second_class",
    "Verif.NN.Yolo.invsigm_spec",
    "Verif.NN.Yolo.width_charged",
    "Verif.AD.backprop_panics",
    "Verif.NN.Yolo.first_box_width_charged",
    "Verif.NN.Yolo.targets_read",
    "Verif.NN.Yolo.targets_arrive",
    "Verif.NN.Yolo.targets_single_cell",
    "Verif.NN.Yolo.targets_in_fives",
    "Verif.NN.Yolo.inside_fits",
    "Verif.NN.Yolo.inside_no_panic",
    "Verif.NN.Yolo.right_edge",
    "Verif.NN.Yolo.left_of_image",
    "Verif.NN.Yolo.left_of_cell",
    "Verif.NN.Yolo.below_image",
    "Verif.NN.Yolo.far_below_image"
   ],
   "note": "Proved: with a single cell the losses see the decoded boxes; the objectness loss of the other boxes; the centre and objectness loss of the first box; the centre target decodes to the target up to 1e-16. Refuted: with more cells the data are rearranged twice, so that the losses see other boxes (train_boxes_partial); the losses are written at the number of the box instead of at its attributes, so that a box with number 2 or more is never charged for its coordinates, for all predictions (coordinates_uncharged); the class losses use the objectness, not the predicted classes (classes_ignored); the class of the second target is read from the first target's centre (second_class); a width that decodes to the target is charged, because fractions of the image are divided by pixels (width_charged, first_box_width_charged); Grad of any cost that depends on an op without SymDiff, as this one, panics (backprop_panics). Targets: exactly which are read from the last channel, and when that panics or fails (targets_read, targets_arrive); a grid of 1 takes none (targets_single_cell); they must come in fives (targets_in_fives); a target inside the image never makes the op write outside of the losses (inside_no_panic). Refuted: a centre on the right edge is charged to the next row (right_edge), one left of the image panics (left_of_image), one below it is charged to places of other boxes and panics only far below (below_image, far_below_image). Not covered: the float32 rounding of targets read from float64 data."
  },
  {
   "property": "C78",
   "status": "partial",
   "theorems": [
    "Verif.Value.clone_spec",
    "Verif.Value.clone_independent",
    "Verif.Value.clone_nil",
    "Verif.Value.zero_spec",
    "Verif.Value.clone0_spec",
    "Verif.Value.clone0_nil",
    "Verif.Value.copy_scalar",
    "Verif.Value.copy_tensor",
    "Verif.Value.copy_kinds",
    "Verif.Value.bindCopy_fresh",
    "Verif.Value.bindCopy_partial",
    "Verif.Value.bindCopy_random_aliases",
    "Verif.Value.bindCopy_dual"
   ],
   "note": "Values live on a heap; clone_spec: a clone reads the same, occupies only memory that was free, and everything else is unchanged; clone_independent: later changes to one do not show in the other; zero_spec, copy_scalar, copy_tensor: in place, nothing else touched (a tensor keeps the shape of the destination, also when the source has another shape of that size); copy_kinds: errors. Not as claimed: a dual value without derivative, as dvUnit0 makes them, cannot be cloned to zero although Clone works (clone0_nil); bindCopy of a dual value into a random node that has one does not copy but shares the memory (bindCopy_random_aliases); into other nodes it is an error (bindCopy_dual). Otherwise bindCopy copies (bindCopy_fresh, bindCopy_partial). tensor.Clone and tensor.Copy are assumed; dual values are not nested; no views."
  },
  {
   "property": "C79",
   "status": "partial",
   "theorems": [
    "Verif.Value.eqBase_spec",
    "Verif.Value.alike_refl",
    "Verif.Value.alike_comm",
    "Verif.Value.valueEq_dual",
    "Verif.Value.valueEq_asymmetric",
    "Verif.Value.valueEq_not_trans",
    "Verif.Value.close_tensor",
    "Verif.Value.eq_close",
    "Verif.Value.close_ignores_shape",
    "Verif.Value.close_dual",
    "Verif.Value.constant_alike",
    "Verif.Value.constant_shape"
   ],
   "note": "eqBase_spec: for scalars and tensors the answer is true exactly if type, elements and shape (as Shape.Eq compares shapes) agree; it panics exactly if only the first is nil. valueEq_dual: the same for dual values; with a derivative only in the first a panic. Refuted: symmetry (valueEq_asymmetric), transitivity (valueEq_not_trans: column, vector, row), that close values have the same shape (close_ignores_shape: whatever the shapes), closeness of dual values panics (close_dual), and ExprGraph.Constant returns a vector when asked for a column of the same numbers (constant_shape). eq_close: equal values are close. NaN is not modelled."
  },
  {
   "property": "C80",
   "status": "partial",
   "theorems": [
    "Verif.Value.let_value",
    "Verif.Value.let_number",
    "Verif.Value.let_dual_panics",
    "Verif.Value.let_not_input",
    "Verif.Value.newNode_typed",
    "Verif.Value.newNode_shape",
    "Verif.Value.newNode_shape_of_value",
    "Verif.Value.newNode_reshapes",
    "Verif.Value.newNode_refuses"
   ],
   "note": "let_value: Let accepts a value exactly if element type and shape (by Shape.Eq) agree with the node. Refuted: a Go number is bound without check to any input node (let_number); a dual value on a node that has one panics instead of an error (let_dual_panics). newNode_typed: for all lists of options in any order the value of the node made has the node's type, but not its shape: WithShape and WithValue of different shapes with as many axes both take effect (newNode_shape). A tensor of one element given to a scalar node is reshaped in the hands of the user (newNode_reshapes). Let with a slice is C133; Let with a node, which does nothing, is not modelled."
  },
  {
   "property": "C81",
   "status": "partial",
   "theorems": [
    "Verif.Value.constantDV_spec",
    "Verif.Value.variableDV_spec",
    "Verif.Value.dvBind0_tensor",
    "Verif.Value.dvBind0_nil",
    "Verif.Value.dvBindVar0_tensor",
    "Verif.Value.setDeriv_scalar",
    "Verif.Value.managed_host",
    "Verif.Value.managed_var_host",
    "Verif.Value.managed_old",
    "Verif.Value.managed_zero_iff",
    "Verif.Value.managed_var_device",
    "Verif.Value.managed_var_overwrites"
   ],
   "note": "constantDV_spec, variableDV_spec: derivative zero or one everywhere, same type and shape, in fresh memory, nothing else changed. dvBind0_tensor: the derivative is zeroed in place and keeps its own shape, whatever the shape of the result (the claim fails when the result has another shape); dvBind0 on a dual value without derivative panics, dvBindVar0 returns an error (dvBind0_nil); dvBindVar0 leaves the derivative of integer and boolean tensors as it was (dvBindVar0_tensor). The op's own Do is not part of the model here. Managed variants (Value/Managed.lean): on a device the derivative of a constant is what the block of memory held before, so zero only if the block was (managed_old, managed_zero_iff); the derivative of a variable is one for scalars and for tensors of floats and truth values, tensors of other element types are refused, also on the host, where dvUnitVar makes them (managed_var_host, managed_var_device); dvUnitVarManaged overwrites the derivative of a value that is a dual value already, which dvUnitVar leaves alone (managed_var_overwrites). Assumed there: the host can write the memory of the device and Memset succeeds."
  },
  {
   "property": "C82",
   "status": "partial",
   "theorems": [
    "Verif.Value.glorotN_spec",
    "Verif.Value.glorotU_partial",
    "Verif.Value.glorotU32_normal",
    "Verif.Value.he_partial",
    "Verif.Value.he_documented",
    "Verif.Value.he_fan",
    "Verif.Value.he_panics",
    "Verif.Value.ranged_spec",
    "Verif.Value.literal_conversion"
   ],
   "note": "glorotN_spec, glorotU_partial, he_partial: number of elements, kind of distribution, mean and variance (for the uniform distribution by its integral). Refuted: GlorotU for float32 draws from a normal distribution (glorotU32_normal); He counts the first size of a matrix but all others of a filter as inputs (he_fan), and the documented 2/n needs a gain of sqrt 2 (he_documented); HeN and HeU panic for float32 (he_panics). ranged_spec: start + i * increment; ValuesOf does not convert a float64 literal for float32 where RangedFromWithStep does (literal_conversion). The generators are assumed to draw from the distribution named."
  },
  {
   "property": "C83",
   "status": "partial",
   "theorems": [
    "Verif.NN.affine_value",
    "Verif.NN.affine_rank_err",
    "Verif.NN.batchNorm_value",
    "Verif.NN.batchNorm_value_eval",
    "Verif.NN.groupNorm_value_partial",
    "Verif.NN.batchNorm_default",
    "Verif.NN.batchNorm_default_equal_iff"
   ],
   "note": "Proved: with one scale and one bias per channel (shape 1xCx1x1, or 1xC), batch normalisation returns scale * normalised + bias in training and in evaluation for all shapes, and so does group normalisation; parameters of another rank are refused. Violated: parameters that are left out get the shape of the whole input, one random number per element of the batch (batchNorm_default); they act as one per channel exactly if the drawn numbers coincide (batchNorm_default_equal_iff). Group normalisation is restricted to groups of fewer than 264 elements, as in C69."
  },
  {
   "property": "C84",
   "status": "partial",
   "theorems": [
    "Verif.Blase.doWork_order",
    "Verif.Blase.doWork_runs",
    "Verif.Blase.doWork_one",
    "Verif.Blase.doWork_runs_iff",
    "Verif.Blase.rounds_run_none",
    "Verif.Blase.doWork_panics",
    "Verif.RunLoop.runDW_doWork",
    "Verif.RunLoop.order_partial",
    "Verif.RunLoop.returned_partial",
    "Verif.RunLoop.single_call_never_run",
    "Verif.RunLoop.two_calls_depend",
    "Verif.RunLoop.flush_misorders"
   ],
   "note": "Proved: DoWork loses no call, runs none twice and keeps the order; from an empty queue at least two waiting calls are all run; in a program without flushes the calls run at any time are the first calls of the program, in every schedule, and at the end every call has been run or lies in the queue. Violated: a call that comes alone is put into the queue and not run (doWork_one, rounds_run_none), so a program with a single call never runs it in any schedule (single_call_never_run); with two calls it depends on the schedule (two_calls_depend); a flush is executed by the worker concurrently with RunAll and can reverse two calls (flush_misorders); queues longer than three panic (doWork_panics). append and process are single steps; the data race inside them is not modelled."
  },
  {
   "property": "C85",
   "status": "partial",
   "theorems": [
    "Verif.Blase.numbers_agree",
    "Verif.Blase.queued_gemm",
    "Verif.Blase.queued_gemm_nothing",
    "Verif.Blase.queued_gemm_gonum",
    "Verif.Blase.queued_gemm_large",
    "Verif.Blase.queued_gemv",
    "Verif.Blase.queued_gemv_gonum",
    "Verif.Blase.dgemv_square_partial",
    "Verif.Blase.dgemv_rectangular_wrong"
   ],
   "note": "Blase/Gemm.lean, Blase/Queue.lean. Proved, if the numbers of gonum's transpositions are those of CBLAS: products of matrices with sizes below 2^31 for all transpositions, sizes, leading dimensions and memories (queued_gemm), with square matrices also products with vectors (queued_gemv); both sides number the functions alike (numbers_agree). Violated: for a product with a vector the number of rows is passed also as the number of columns, so for every matrix with different numbers of rows and columns some input gives a wrong result (dgemv_rectangular_wrong); sizes are cut to 32 bits (queued_gemm_large); transpositions are passed on as gonum numbers them, and a number CBLAS does not know leaves the result as it was (queued_gemm_nothing). The gonum version of go.mod numbers them by the letters N and T, so that no queued product is computed (queued_gemm_gonum, queued_gemv_gonum); this rests on gonum v0.11.0, whose source is not in /repo. Assumed: the block has the same layout in Go and C, the memory behind the addresses kept as integers is still there when the call is run, CBLAS does what it says. Products of the other precisions are not queued."
  },
  {
   "property": "C86",
   "status": "partial",
   "theorems": [
    "Verif.RunLoop.progress",
    "Verif.RunLoop.step_weight",
    "Verif.RunLoop.exec_length",
    "Verif.RunLoop.ends_returned_partial",
    "Verif.RunLoop.detached_runs_none",
    "Verif.RunLoop.detached_never_returns",
    "Verif.RunLoop.calls_panic"
   ],
   "note": "Proved: with the queue attached there is no deadlock, every step decreases a measure, so every schedule ends, with RunAll returned or a panic. Violated: a panic is possible when calls pile up (calls_panic). The queue is attached only if the BLAS has a Close method, which blase lacks; then no call is ever run (detached_runs_none) and every program with more than three calls waits for ever (detached_never_returns)."
  },
  {
   "property": "C87",
   "status": "partial",
   "theorems": [
    "Verif.RunLoop.Lisp.step_weight",
    "Verif.RunLoop.Lisp.exec_length",
    "Verif.RunLoop.Lisp.ends_returned",
    "Verif.RunLoop.Lisp.success_partial",
    "Verif.RunLoop.Lisp.success_ends",
    "Verif.RunLoop.Lisp.finishes_iff",
    "Verif.RunLoop.Lisp.names_next",
    "Verif.RunLoop.Lisp.worker_stays",
    "Verif.RunLoop.Lisp.derivative_fails",
    "Verif.RunLoop.Lisp.differentiates_after_error",
    "Verif.RunLoop.Lisp.crashes_after_error"
   ],
   "note": "Proved: every schedule ends with RunAll returned (or the program crashed); if no node fails, all nodes are run once in order, differentiated once in reverse order, no error is returned and the goroutine ends. Violated: if a node fails, the error names the node after it or none, never the one that failed (names_next); the goroutine never ends (worker_stays, derivative_fails; it ends exactly if nothing fails, finishes_iff); it differentiates after RunAll has returned (differentiates_after_error) and may crash the program (crashes_after_error)."
  },
  {
   "property": "C88",
   "status": "partial",
   "theorems": [
    "Verif.RunLoop.Lisp.lastRun_partial",
    "Verif.RunLoop.Lisp.lastRun_first",
    "Verif.RunLoop.Lisp.lastRun_panics"
   ],
   "note": "Violated: after a complete run with backpropagation LastRun panics (lastRun_panics); without, it returns the first node, which is the last exactly for graphs of one node (lastRun_first)."
  },
  {
   "property": "C89",
   "status": "partial",
   "theorems": [
    "Verif.RunLoop.Watch.has_correct",
    "Verif.RunLoop.Watch.has_scalar_panics",
    "Verif.RunLoop.Watch.tape_partial",
    "Verif.RunLoop.Watch.zero_unchecked",
    "Verif.RunLoop.Watch.pointers_partial",
    "Verif.RunLoop.Watch.lisp_nan_partial",
    "Verif.RunLoop.Watch.lisp_inf_ignored"
   ],
   "note": "Proved: the checks answer rightly for floating-point scalars, tensors and dual values; on the tape machine, if registers and nodes have positive numbers, a run is stopped exactly at the first bad value; likewise for NaN on the define-by-run machine and for shared memory. Violated: register 0 and node 0 are never checked (zero_unchecked); other scalars panic (has_scalar_panics); the infinity watch does nothing on the define-by-run machine (lisp_inf_ignored)."
  },
  {
   "property": "C90",
   "status": "partial",
   "theorems": [
    "Verif.RunLoop.Mode.mode_of_last",
    "Verif.RunLoop.Mode.own_mode_iff",
    "Verif.RunLoop.Mode.own_mode_partial",
    "Verif.RunLoop.Mode.create_resets",
    "Verif.RunLoop.Mode.train_then_eval_partial",
    "Verif.RunLoop.Mode.train_stops",
    "Verif.RunLoop.Mode.retrain_forgets"
   ],
   "note": "Proved: whichever machine runs, it runs in the mode of the machine made last for the graph; hence right if all machines of a graph have the same mode, and training followed by evaluation keeps what was learned. Violated: making a machine for evaluation stops an earlier machine from training (train_stops); making a machine for training forgets the running statistics (create_resets, retrain_forgets)."
  },
  {
   "property": "C91",
   "status": "proved",
   "theorems": [
    "Verif.RunLoop.Mode.switch_on",
    "Verif.RunLoop.Mode.switch_off",
    "Verif.RunLoop.Mode.fwdOnly_last",
    "Verif.RunLoop.Mode.bwdOnly_last"
   ],
   "note": ""
  },
  {
   "property": "C92",
   "status": "partial",
   "theorems": [
    "Verif.Train.delivered_partial",
    "Verif.Train.not_asked_for",
    "Verif.Train.run_ok_iff",
    "Verif.Train.run_ok_of",
    "Verif.Train.runs_pile_up",
    "Verif.Train.rerun_multiplies",
    "Verif.Train.constant_first_panics",
    "Verif.Train.iop_goes_astray",
    "Verif.Train.iop_scalar_lost"
   ],
   "note": "Proved for all programs without Iop gradients: a run that succeeds adds to each wanted node exactly the results of the nodes labelled as its derivative (delivered_partial) and leaves the derivatives of all others (not_asked_for); it succeeds exactly if every wanted node is bound before its first derivative arrives, and panics otherwise (run_ok_iff). Refuted: a second run on the same inputs adds the gradients again, so k runs give k times the gradient unless a solver zeroes it (rerun_multiplies); whether a run without BindDualValues arguments panics depends on the order of sorting (constant_first_panics); for Iop gradients the closures capture the shared loop variable, so the last node gets all shares and the others none, the queue is never emptied, and for scalars the sum is dropped (iop_goes_astray, iop_scalar_lost)."
  },
  {
   "property": "C93",
   "status": "partial",
   "theorems": [
    "Verif.Train.epoch_ok",
    "Verif.Train.epochs_follow",
    "Verif.Train.training_scalar_partial",
    "Verif.Train.training_descends_partial",
    "Verif.Train.training_tensor_partial",
    "Verif.Train.training_tensor_descends_partial",
    "Verif.Train.fit_converges",
    "Verif.Train.sq_converges"
   ],
   "note": "Joins the models of Grad, the compiler, the tape machine, the delivery of gradients and the solvers. Proved for any number of rounds and every solver that succeeds and zeroes the gradient, for graphs of scalar operations (training_scalar_partial: from the gradient expressions Grad returns, over the compiled program) and of tensor operations (training_tensor_partial: that the gradient nodes compute what SymDiff says is an assumption here; C112 proves it). fit_converges and sq_converges are concrete programs for which nothing is assumed. Missing: programs with let statements, equal hashes, unsafe in-place operations or Iop gradients, which Setup excludes because the machine is wrong there (C10, C92), and machines without BindDualValues arguments."
  },
  {
   "property": "C94",
   "status": "partial",
   "theorems": [
    "Verif.Misc.chain_eq_byHand",
    "Verif.Misc.lift1_spec",
    "Verif.Misc.lift2_spec",
    "Verif.Misc.lift2_result",
    "Verif.Misc.lift2_mk",
    "Verif.Misc.nodesFromInputs_ok",
    "Verif.Misc.nodesFromInputs_error",
    "Verif.Misc.must_spec",
    "Verif.Misc.lift1_nil_called"
   ],
   "note": "Proved for all functions, inputs (including types of the user with their own Err and Mk) and chains of any length. Errors are identified with their causes. Lift1Axial and Lift2Broadcast hand their extra arguments through and are not modelled separately. False in the code: an input that carries no error but has no node (a list of nodes, Err(nil)) is not caught, the function is called with a nil node (lift1_nil_called)."
  },
  {
   "property": "C95",
   "status": "partial",
   "theorems": [
    "Verif.Misc.plain_spec",
    "Verif.Misc.incr_spec",
    "Verif.Misc.prealloc_spec_partial",
    "Verif.Misc.unsafe_spec",
    "Verif.Misc.prealloc_aliased",
    "Verif.Misc.incr_ignored",
    "Verif.Misc.prealloc_ignored_off_cpu",
    "Verif.Misc.determineDevice_fails"
   ],
   "note": "Build without CUDA; the optional methods of the op are assumed to do what their interfaces say. Proved: plain execution, increments by ops that can increment, preallocated values that are no operands, overwriting. False in the code, proved for all inputs: with a preallocated value the op runs twice and its first result is used as operand if the preallocated value is one (prealloc_aliased); a value to be incremented is ignored by ops that cannot increment (incr_ignored); off the CPU ops that can increment ignore the preallocated value; DetermineDevice always fails."
  },
  {
   "property": "C96",
   "status": "partial",
   "theorems": [
    "Verif.Misc.sigmCode_error",
    "Verif.Misc.sigmCode_mono",
    "Verif.Misc.sigmoid_error",
    "Verif.Misc.one_minus_sigmoid",
    "Verif.Misc.softpCode_error",
    "Verif.Misc.softplus_error",
    "Verif.Misc.sign_spec",
    "Verif.Misc.sigmoid_not_symmetric",
    "Verif.Misc.softplus_not_monotone",
    "Verif.Misc.sigmoid64_not_rounded",
    "Verif.Misc.sigmoid32_not_rounded",
    "Verif.Misc.softplus64_not_rounded",
    "Verif.Misc.softplus32_not_rounded",
    "Verif.Misc.softplus64_falls",
    "Verif.Misc.sigmoid_stuck"
   ],
   "note": "Over the reals (no rounding). False in the code: softplus is not monotone at its upper cut-off (for any cut-off), sigmoid is not symmetric between the cut-offs, the sign of zero is 1. Beyond the upper cut-offs the error is larger than that of rounding: from 19 to 36 (single: 15 to 16) another number of the type is closer to sigmoid than the answer 1, from 16 to 32 (single: 14 to 14.5) the next larger number is closer to softplus, and softplus falls from 16 to the double that follows. Beyond its cut-offs the gradient of sigmoid is zero."
  },
  {
   "property": "C97",
   "status": "partial",
   "theorems": [
    "Verif.Misc.engine_transpose",
    "Verif.Misc.engine_transpose_tensor",
    "Verif.Misc.transpose64_any",
    "Verif.Misc.transpose32_any",
    "Verif.Misc.transpose32_destroys",
    "Verif.Misc.transpose_empty"
   ],
   "note": "Proved for all shapes with positive sizes and all permutations when the tensor fills its buffer; transpose64_any/transpose32_any say what happens for any other positions. False in the code for views: elements of the buffer outside of the view are overwritten (transpose32_destroys), and an empty float64 tensor panics."
  },
  {
   "property": "C98",
   "status": "partial",
   "theorems": [
    "Verif.Pool.shapes_kept_partial",
    "Verif.Pool.allBenign_of_shapes",
    "Verif.Pool.step_good_iff",
    "Verif.Pool.duplicate_zeroes",
    "Verif.Pool.constant_option_zeroes"
   ],
   "note": "Proved for all histories and all choices of the pool in which no duplicate node is made from a value without a shape and no constant gets a shape as option; step_good_iff: these are exactly the steps that break the invariant. False in the code: such a duplicate zeroes the shape of the tensor of the user (duplicate_zeroes), such a constant has shape zero (constant_option_zeroes). Not covered: the operand recycled by the stabilization of Log (C20), ReturnNode called by the user."
  },
  {
   "property": "C99",
   "status": "partial",
   "theorems": [
    "Verif.Pool.unbindNonInputs_spec",
    "Verif.Pool.unbindAll_spec",
    "Verif.Pool.unbindNonInputs_keeps",
    "Verif.Pool.unbindAll_once",
    "Verif.Pool.unbindAll_empties_input",
    "Verif.Pool.shared_given_back_twice"
   ],
   "note": "Proved exactly which tensors are emptied and given back, and how often. False in the code: UnbindAll empties the tensors the user bound to inputs; a tensor bound to two nodes, as the tape machine leaves nodes that used the same register, is given back twice."
  },
  {
   "property": "C100",
   "status": "partial",
   "theorems": [
    "Verif.Value.scalar_do",
    "Verif.Value.tensor_do",
    "Verif.Value.tensor_prealloc",
    "Verif.Value.scalar_prealloc",
    "Verif.Value.tensor_types_differ",
    "Verif.Value.mixed_types_differ",
    "Verif.Value.tensor_incr",
    "Verif.Value.tensor_unsafe",
    "Verif.Value.tensor_unsafe_reshapes",
    "Verif.Value.unsafe_single_panics",
    "Verif.Value.unsafe_scalar_single",
    "Verif.Value.scalar_incr",
    "Verif.Value.scalar_incr_tensor",
    "Verif.Value.tensor_int_scalar",
    "Verif.Value.unary_panics"
   ],
   "note": "Proved: the result, its place and the frame (nothing else changes) for Do, UsePreallocDo, UnsafeDo without change of shape and IncrDo, for all operands; exactly when two scalars succeed; different element types are refused. Violated, proved: UnsafeDo panics on a tensor with one element and a scalar on the right, for every operation (unsafe_single_panics), although Do computes the result; UnsafeDo accepts tensors of different shapes with as many elements, which Do refuses (tensor_unsafe_reshapes); an integer scalar next to a tensor is an error (tensor_int_scalar); incrementing a scalar by a tensor adds the scalar to every element (scalar_incr_tensor); a unary operation on integers panics when the node is built (unary_panics). Missing: in-place and incrementing comparisons that change the element type, the preallocated tensor being the right operand, views; the arithmetic of the tensor library is assumed."
  },
  {
   "property": "C101",
   "status": "partial",
   "theorems": [
    "Verif.LinAlg.operands_restored",
    "Verif.LinAlg.product_right",
    "Verif.LinAlg.product_same",
    "Verif.LinAlg.serial_right",
    "Verif.LinAlg.serial_schedule",
    "Verif.LinAlg.overlap_results",
    "Verif.LinAlg.schedule_dependent",
    "Verif.LinAlg.same_operand_wrong",
    "Verif.LinAlg.same_operand_error"
   ],
   "note": "Proved for all sets of products and all interleavings: operands end as they were; a product of two different tensors that no other goroutine transposes is the one asked for; one after the other all products of different tensors are right. Violated, proved: two goroutines that transpose the same operand, as the gradients of x·u and x·w do, get the product with the operand not transposed in some schedule (schedule_dependent), so the concurrent machine of x/vm, whose own model (C28) takes values as immutable, may compute wrong gradients; the same tensor on both sides with one flag gives the transposed square or an error (same_operand_wrong, same_operand_error). Simplified: a transposition is one step. Matrix-vector and vector products are not covered; batched products transpose slices of their own."
  },
  {
   "property": "C102",
   "status": "partial",
   "theorems": [
    "Verif.Misc.cons_options",
    "Verif.Misc.fromTensor_spec",
    "Verif.Misc.fromTensor_caller",
    "Verif.Misc.fromTensor_twice",
    "Verif.Misc.fromTensor_twice_full",
    "Verif.Misc.fromScalar_spec",
    "Verif.Misc.second_node_shape",
    "Verif.Misc.second_node_panics",
    "Verif.Misc.reshape_arg",
    "Verif.Misc.reshape_reuse",
    "Verif.Misc.reshape_reuse_differs",
    "Verif.Misc.reshape_alias",
    "Verif.Misc.bindDV_spec",
    "Verif.Misc.subgraph_sorts",
    "Verif.Misc.subgraph_loses",
    "Verif.Misc.subgraph_full",
    "Verif.Misc.subgraph_loses_node",
    "Verif.Misc.transpose_now",
    "Verif.Misc.transpose_refilled",
    "Verif.Misc.transpose_own",
    "Verif.Misc.transpose_shape_iff",
    "Verif.Misc.transpose_gradient_iff",
    "Verif.Misc.reduce_axes"
   ],
   "note": "The code overwrites or keeps slices of its callers, and the theorems say exactly when and with what (defects: NodeFromAny with spare capacity, Reshape with a negative entry, the slice kept in reshapeOp, Subgraph; the axes kept by Transpose, Sum and Max). Refilled axes change a transposition that was built before (transpose_refilled), whose value then has the shape of its node exactly if the axes are the same, for operands whose sizes differ (transpose_shape_iff), and whose gradient, if built before the refill, belongs to the old axes (transpose_gradient_iff). Memory is modelled as arrays and slices; append and copy are as the language defines them. The library's error for a reshape of another size is assumed; what set.Uniq leaves in the slice is a parameter. The statement is for a single statement appended by Subgraph. Not proved: Nodes.Difference and Intersect, which nothing in the package calls."
  },
  {
   "property": "C103",
   "status": "partial",
   "theorems": [
    "Verif.Graph.edges_listed",
    "Verif.Graph.edge_single",
    "Verif.Graph.edges_reversed",
    "Verif.Graph.edges_as_asked",
    "Verif.Graph.edges_repeated",
    "Verif.Graph.node_never_nil",
    "Verif.Graph.to_keeps_edges",
    "Verif.Graph.to_changes_listing",
    "Verif.Graph.roots_with_statements",
    "Verif.Graph.roots_sound",
    "Verif.Graph.roots_hidden",
    "Verif.Graph.one_use",
    "Verif.Graph.byName_exact",
    "Verif.Graph.inputs_exact",
    "Verif.Graph.constant_found",
    "Verif.Graph.constant_wrong"
   ],
   "note": "Queries.lean. Defects shown for all graphs: every edge listed by Edges (graph.go 492-506) runs from operand to user, the reverse of Edge, From and HasEdgeFromTo; Node (518-527) wraps a nil *Node and is never nil; Constant (299-308) falls back on AddNode, which compares printed values only, so the constant 1 of another type is returned. Defects shown by a case: an edge is listed as often as its expression was built; a node used only by two reads, or by one read built twice, is missing among the roots. Graphs built without RemoveNode (as in C01). The order in which Go visits a map is not modelled: statements about Roots are about membership."
  },
  {
   "property": "C104",
   "status": "partial",
   "theorems": [
    "Verif.Tape.let_register",
    "Verif.Tape.let_does_nothing",
    "Verif.Tape.set_run",
    "Verif.Tape.set_works_iff",
    "Verif.Tape.set_wrong_target",
    "Verif.Value.read_first",
    "Verif.Value.read_again_tensor",
    "Verif.Value.read_again_scalar",
    "Verif.Value.read_again_right_iff",
    "Verif.Value.read_kinds",
    "Verif.Value.read_overwrites",
    "Verif.Value.read_lisp",
    "Verif.Value.read_differs"
   ],
   "note": "Tape/Statements.lean, Value/Read.lean. let_register holds in every program without merged nodes; set_run and set_works_iff are about programs of three inputs, one operation on two of them and one Set, for all operations, values and places. False in the code: Set changes the first operand of the operation instead of the node named (set_wrong_target); it does nothing for scalars (no pointer) and external operations, and nothing on the define-by-run machine (vm_genera.go 415-418 has no case for it); later reads keep the shape of the first (read_again_right_iff) and overwrite values kept from earlier runs (read_overwrites). Copying tensors of different sizes is not modelled. Values on a device are not modelled."
  },
  {
   "property": "C105",
   "status": "partial",
   "theorems": [
    "Verif.Graph.grad_refuses",
    "Verif.Graph.grad_nothing",
    "Verif.Graph.grad_starts",
    "Verif.Graph.seed_right",
    "Verif.Graph.seed_by_name",
    "Verif.Graph.seed_cases"
   ],
   "note": "Graph/GradEntry.lean. False in the code: errors.Wrapf of a nil error in the default case (gorgonia.go 237-238) makes Grad return nil, nil for costs that are not floats (grad_nothing); AddNode finds constants by name, so a constant of another type or another value that prints or is named as 1 becomes the start of the gradient (seed_by_name, seed_cases: all gradients five times too large). Graphs built without RemoveNode. Backpropagate itself is the subject of C17 and C18."
  },
  {
   "property": "C106",
   "status": "partial",
   "theorems": [
    "Verif.Shape.roundTo_nearest",
    "Verif.Shape.roundTo_exact",
    "Verif.Shape.size_exact",
    "Verif.Shape.size_axis",
    "Verif.Shape.size_float32_wrong",
    "Verif.Shape.size_scalar",
    "Verif.Shape.repeatDo_spec",
    "Verif.Shape.repeatPre_spec",
    "Verif.Shape.repeatPre_stale",
    "Verif.Shape.repeatPre_scalar",
    "Verif.Shape.repeat_count",
    "Verif.Shape.run_repeats",
    "Verif.Shape.run_int_stale",
    "Verif.Shape.run_unsupported",
    "Verif.Shape.at_spec"
   ],
   "note": "Shape/Sizes.lean. Numbers are rationals (no NaN, no infinities); Repeat, RepeatReuse, At and Memset of the tensor library are assumed to do what they say. False in the code: repeatOp.UsePreallocDo (op_tensor.go 433-457) handles only floats for tensors of one element and otherwise returns the memory as it was (repeatPre_stale, run_int_stale: a broadcast int of one element becomes zeros); sizeOp.Do (128-137) fails for int64, int32, byte and bool (run_unsupported); float32 sizes above 2^24 are rounded (size_float32_wrong); the size of a bool scalar is an int although its node is a bool (size_scalar)."
  },
  {
   "property": "C107",
   "status": "proved",
   "theorems": [
    "Verif.Tape.prealloc_blank",
    "Verif.Tape.accum_run",
    "Verif.Tape.accum_needs_reset",
    "Verif.Shape.step_incr_adds",
    "Verif.Shape.step_incr_needs_blank",
    "Verif.Tape.no_prealloc"
   ],
   "note": "Tape/Blank.lean, Shape/SliceStep.lean. Programs whose nodes have different hashes (no merging) and addresses of inputs, bound values and constants that were handed out before. That makeValue gives zeros is assumed of the tensor library. accum_needs_reset shows that the empty registers are needed. no_prealloc: an operation that neither overwrites nor calls outside finds no preallocated value and is run by Do."
  },
  {
   "property": "C108",
   "status": "partial",
   "theorems": [
    "Verif.Graph.copy_exact",
    "Verif.Graph.draw_exact",
    "Verif.Graph.draw_one_main",
    "Verif.Graph.draw_groups_inside",
    "Verif.Graph.dot_graph",
    "Verif.Graph.dotGroups_again",
    "Verif.Graph.draw_order_matters",
    "Verif.Graph.text_determined_iff",
    "Verif.Graph.text_not_determined"
   ],
   "note": "Graph/Dot.lean. Proved for all reachable graphs, groups and orders except for the last sentence, which is refuted: the clusters of the groups are written in the order of a Go map, so that the text is determined exactly when there is at most one group (text_determined_iff, text_not_determined). If an input were put in a group too, the place of its cluster would depend on the order (draw_order_matters); no function of the package does this. The graphs of gonum are taken as documented; labels and attributes are left out."
  },
  {
   "property": "C109",
   "status": "partial",
   "theorems": [
    "Verif.Tape.members_differ",
    "Verif.Tape.hashes_differ",
    "Verif.Tape.prog_noclash",
    "Verif.Tape.graph_run_partial",
    "Verif.Tape.graph_run",
    "Verif.Tape.insertion_order",
    "Verif.Tape.denotes_exists",
    "Verif.Tape.denotes_unique",
    "Verif.Tape.collision_no_value",
    "Verif.Tape.collision_wrong"
   ],
   "note": "Proved for all graphs without let statements on which the hash does not collide. graph_run needs that no operation returns the memory of an operand; graph_run_partial replaces this by the condition Safe of C10. If two members have the same hash code, one of them gets no value in any run (collision_no_value, for all graphs), and its users read the other one's value (collision_wrong): the graph keeps colliding nodes apart, the compiler does not."
  },
  {
   "property": "C110",
   "status": "partial",
   "theorems": [
    "Verif.Lisp.Tensor.cost_gradient",
    "Verif.Lisp.Tensor.runAll_gradient",
    "Verif.Lisp.Tensor.seeded_iff",
    "Verif.Lisp.Tensor.seeded_operand",
    "Verif.Lisp.Tensor.refused_iff",
    "Verif.Lisp.Tensor.nonscalar_refused",
    "Verif.Lisp.Tensor.read_twice_lost",
    "Verif.Lisp.Tensor.clone_read_lost",
    "Verif.Lisp.Tensor.kept_seeded",
    "Verif.Lisp.Tensor.kept_unchecked",
    "Verif.Lisp.Tensor.tied_read_once",
    "Verif.Lisp.Tensor.tied_read_twice",
    "Verif.Lisp.Tensor.tied_kept"
   ],
   "note": "Proved for the cost read once or not at all on a graph whose roots have not been asked for before. Defects, proved: if the cost is read twice (two Reads, or one that is asked for again, which records its edge again), it is no root any more: the run succeeds, the values are delivered, and no derivative changes. On a copy of a graph (Clone keeps an empty list of roots instead of none) a cost that is read is not differentiated, and shapes are not checked. If the roots have been asked for before nodes were added, the old result is differentiated too (a cost that is the negation of the old one gets a zero gradient) and the new one is not checked."
  },
  {
   "property": "C111",
   "status": "proved",
   "theorems": [
    "Verif.Train.lround_ok",
    "Verif.Train.lisp_training",
    "Verif.Train.lisp_training_descends",
    "Verif.Train.tied_training",
    "Verif.Train.sqL_setup",
    "Verif.Train.sqL_okay",
    "Verif.Train.sqL_converges"
   ],
   "note": "For graphs with one scalar result that is read once or not at all (C110) and operations whose DoDiff adds their gradient (C21); real arithmetic. tied_training (a classifier with tied weights of any size, new samples in every round) and sqL_converges (sum of squares, closed form of the weights after k rounds) are concrete programs for which nothing is assumed. A machine used again after Reset executes only one node (C22)."
  },
  {
   "property": "C112",
   "status": "proved",
   "theorems": [
    "Verif.AD.gradX_eval",
    "Verif.Train.gradX_correct",
    "Verif.Train.training_symbolic",
    "Verif.Train.build_setup",
    "Verif.Train.training_built",
    "Verif.Train.training_all",
    "Verif.Train.lr_trains"
   ],
   "note": "The gradient nodes are expressions over the nodes of the graph (AD/Symbolic.lean); what each SymDiff builds is in AD/SymbolicOps.lean and AD/SymbolicMore.lean, with a proof that it computes the gradients of the operation used for C17. training_symbolic is for any program whose nodes were made for the nodes of the graph and the gradient nodes, in any order and with merged nodes; training_built is for the program that planOf makes of an arbitrary graph, from the start of a new machine, and keeps only the elements of each value in memory; training_all needs no condition on the operations, but its memory keeps the functions of the model also outside of the shape. lr_trains (linear regression of any size) assumes nothing. The gradient operations of pooling and normalisation are modelled as functions that compute the state of the forward operation again. Not covered: operations whose SymDiff is wrong (C17); programs with let statements, equal hashes or operations that overwrite operands (C10, C21)."
  },
  {
   "property": "C113",
   "status": "proved",
   "theorems": [
    "Verif.AD.gradX_fresh",
    "Verif.Train.shapeOf_value",
    "Verif.Train.training_graph",
    "Verif.Train.training_graph_descends",
    "Verif.Train.attention_trains",
    "Verif.AD.cnn_value",
    "Verif.Train.cnn_trains"
   ],
   "note": "training_graph is for arbitrary graphs of the operations of C17 (DOp) and any solver that zeroes the gradient; training_graph_descends writes it out for the plain solver. attention_trains and cnn_trains assume only the shapes of the data, and for the convolutional network that the filters reached avoid kinks and ties (Generic). As for C112 the values are real numbers and programs have no let statements, equal hashes or overwritten operands."
  },
  {
   "property": "C114",
   "status": "partial",
   "theorems": [
    "Verif.XVM.life_values",
    "Verif.XVM.rerun_right",
    "Verif.XVM.first_error",
    "Verif.XVM.error_iff",
    "Verif.XVM.log_mem",
    "Verif.XVM.getResult_made",
    "Verif.XVM.getResult_node",
    "Verif.XVM.getResult_unknown",
    "Verif.XVM.rebind_stale",
    "Verif.XVM.nullary_unrun",
    "Verif.XVM.close_all",
    "Verif.XVM.close_twice",
    "Verif.XVM.closed_never"
   ],
   "note": "XVM/Life.lean. Proved for all histories: reruns, errors, results, Close, no success after Close. False in the code: newInput (x/vm/node.go 122-132) reads the value of a node once, when the machine is made, so values bound later are never used (getResult_made for all graphs, rebind_stale); an op without operands that is no constant is treated as an input and never run, so its value is nil (nullary_unrun); a second Close panics for every graph with a node (close_twice). Operations are functions in the model."
  },
  {
   "property": "C115",
   "status": "partial",
   "theorems": [
    "Verif.XVM.Agree.two_agree",
    "Verif.XVM.Agree.machines_agree_partial",
    "Verif.XVM.Agree.machines_differ",
    "Verif.XVM.Agree.random_differs"
   ],
   "note": "Proved for graphs without random ops and tensor constants (Plain): the goroutine machine gives a random op no value (random_differs) and waits for a tensor constant without end (arity_hangs of C29). The tape machine agrees where no operation overwrites memory that is still needed (Safe of C10); machines_differ is a graph on which it ends without error with 25 where the other two give 10. The define-by-run machine is modelled on its first run, on one device, with forward execution only."
  },
  {
   "property": "C116",
   "status": "partial",
   "theorems": [
    "Verif.Solver.Cache.moments_kept",
    "Verif.Solver.Cache.rounds_exist",
    "Verif.Solver.Cache.keyed_kept",
    "Verif.Solver.Cache.failed_first",
    "Verif.Solver.Cache.longer_panics",
    "Verif.Solver.Cache.reordered_wrong",
    "Verif.Solver.Cache.bb_broken"
   ],
   "note": "Proved for the four solvers with a slice as long as every parameter keeps its place in the models and the first model is the longest (moments_kept; such runs do not fail, rounds_exist), and for AdamW, which keeps a map from nodes, without conditions (keyed_kept). Refuted otherwise: a longer model panics (longer_panics), another order of the same parameters uses the moments of another parameter (reordered_wrong), and a first Step of Barzilai-Borwein that fails for a missing gradient makes the next one panic (bb_broken)."
  },
  {
   "property": "C117",
   "status": "partial",
   "theorems": [
    "Verif.Cuda.elemBinOp_device_partial",
    "Verif.Cuda.engineBin_spec",
    "Verif.Cuda.engineScalar_spec",
    "Verif.Cuda.launch_spec",
    "Verif.Cuda.launch_exists",
    "Verif.Cuda.launch_progress",
    "Verif.Cuda.index_inj",
    "Verif.Cuda.index_range",
    "Verif.Cuda.elemGridSize_covers",
    "Verif.Cuda.elemGridSize_misses",
    "Verif.Cuda.too_many_blocks",
    "Verif.Cuda.reuse_second_operand",
    "Verif.Cuda.incr_overwrites",
    "Verif.Cuda.scalar_in_tensor"
   ],
   "note": "Every thread makes its reads and its write as separate steps in any order with those of the others; every schedule can be completed (launch_exists) and every completed one has the stated result. The property fails in the code, and these failures are theorems: if more blocks are needed than the x dimension of the grid allows, the grid is computed with remainders instead of quotients and elements are silently left out (elemGridSize_misses, too_many_blocks), so the positive theorem asks for n <= threads per block * (blocks in x - 1); if the reuse tensor is the second operand, the first operand is copied over it and the result is op(a,a) (reuse_second_operand), so the theorem asks that the result lies apart from the other operand; WithIncr is taken for reuse (incr_overwrites); two scalars with a larger preallocated tensor race (scalar_in_tensor). mod has no kernel. Numbers are real; the kernels are those of 'cuda modules/src'; the driver and PTX are not modelled."
  },
  {
   "property": "C118",
   "status": "partial",
   "theorems": [
    "Verif.Cuda.elemUnary_device_partial",
    "Verif.Cuda.unKernel_host",
    "Verif.Cuda.sign_zero_differs",
    "Verif.Cuda.inverse_on_host"
   ],
   "note": "Kernels are compared with the functions of the host as real functions. The property fails for the sign of zero, which is 0 on the device and 1 on the host (sign_zero_differs). The kernel for inverses exists under the name inverse and is asked for as inv, so that the operation always runs on the host (inverse_on_host). The restriction on the size of the tensor is that of C117. Rounding and special values are not modelled."
  },
  {
   "property": "C119",
   "status": "partial",
   "theorems": [
    "Verif.Cuda.matMul_device_partial",
    "Verif.Cuda.matVecMul_device",
    "Verif.Cuda.outer_row_device",
    "Verif.Cuda.outer_col_adds",
    "Verif.Cuda.outer_restores",
    "Verif.Cuda.outer_leaves_reshaped",
    "Verif.Cuda.matMul_order_ignored",
    "Verif.Cuda.matMul_order_wrong",
    "Verif.Cuda.gemm_possible"
   ],
   "note": "Dgemm, Dgemv and Dger are specified by the reference BLAS with leading dimensions. The order of the preallocated result is not looked at: the product is right if it is the order of the operands and not transposed, and wrong otherwise (matMul_order_ignored, matMul_order_wrong). For a column-major result Outer adds to what is there, as Dger does, without clearing it (outer_col_adds); for a row-major one it leaves its operands reshaped if the product fails (outer_leaves_reshaped). Strides of vectors are taken as 1 by the code; matrices are dense in the model."
  },
  {
   "property": "C120",
   "status": "partial",
   "theorems": [
    "Verif.Cuda.transfer_to_device",
    "Verif.Cuda.transfer_to_host",
    "Verif.Cuda.transfer_round_trip",
    "Verif.Cuda.transfer_not_awaited",
    "Verif.Cuda.transfer_index",
    "Verif.Cuda.transfer_between",
    "Verif.Cuda.valueOnDevice_flag",
    "Verif.Cuda.contexts_last",
    "Verif.Cuda.devTransport_context"
   ],
   "note": "Queued copies are done in order when a device is flushed (the batched contexts of the CUDA binding are outside the repository). The positive theorems about synchronous transfers are for a machine with a channel for signals; the CUDA build never makes that channel, and without it a synchronous transfer returns a value of zeros (transfer_not_awaited). Contexts takes the address of a field of its loop variable, so that all its entries lead to the last device (contexts_last, devTransport_context). The check of the device number is off by one and lets the first number that is too large panic (transfer_index); transfers between devices panic (transfer_between)."
  },
  {
   "property": "C121",
   "status": "proved",
   "theorems": [
    "Verif.Round.graph_rounded",
    "Verif.Round.gradient_rounded",
    "Verif.Round.isGradient_unique",
    "Verif.Round.training_rounded",
    "Verif.Round.descent_rounded",
    "Verif.Round.good_steady",
    "Verif.Round.attention_smooth",
    "Verif.Round.attention_training_rounded",
    "Verif.Round.flImp_sound",
    "Verif.Round.flImp_exact"
   ],
   "note": "Implementations are relations between operands, roundoff and result; what is assumed of them (`Sound`: accurate near operands where the exact operation is continuous, sizes and copies exact) is shown to hold of one that rounds every product and sum in any order. Overflow and values that are not numbers are left out; so is the penalty on absolute values, whose step is not continuous. That the gradient nodes are continuous is proved for elementwise operations, sums, softmax, matrix products and batched products."
  },
  {
   "property": "C122",
   "status": "proved",
   "theorems": [
    "Verif.Round.fl_rnd",
    "Verif.Round.sum_error",
    "Verif.Round.dot_error",
    "Verif.Round.matMul_accurate",
    "Verif.Round.batch_accurate"
   ],
   "note": "The exponent range is not limited: overflow and underflow are left out."
  },
  {
   "property": "C123",
   "status": "proved",
   "theorems": [
    "Verif.Device.insert_nodes",
    "Verif.Device.insert_once",
    "Verif.Device.insert_ready",
    "Verif.Device.insert_local",
    "Verif.Device.insert_analyzed",
    "Verif.Device.insert_run"
   ],
   "note": "For the host and one device, which is what analyzeDevice chooses. With three devices the claim about the devices is false, since the transports are kept by what they read only: Verif.Device.insert_wrong_device is a graph in which a node on device 1 reads the copy made for device 0."
  },
  {
   "property": "C124",
   "status": "proved",
   "theorems": [
    "Verif.Device.device_values",
    "Verif.Device.device_local",
    "Verif.Device.reg_home",
    "Verif.Device.reg_in_range",
    "Verif.Device.root_kept",
    "Verif.Device.computed_eq",
    "Verif.Device.dead_unread"
   ],
   "note": "The list of C123 is lowered to positions (Verif.Device.program). Without let statements, OpenCL operations and replaced nodes. Here every instruction takes effect at once; that operations of the device wait in a queue and how the memory of a register is obtained is the subject of C127."
  },
  {
   "property": "C125",
   "status": "partial",
   "theorems": [
    "Verif.Device.free_once",
    "Verif.Device.free_device",
    "Verif.Device.free_unread",
    "Verif.Device.free_unwritten",
    "Verif.Device.host_program_frees_device_register"
   ],
   "note": "Proved except that every freed register exists, which is false: in the CUDA build a statement is not in locMap, the zero register found there is register 0 of device 0, and a program that has a Read statement but nothing on the device ends by freeing that register, so that free.exec indexes an empty slice (host_program_frees_device_register)."
  },
  {
   "property": "C126",
   "status": "partial",
   "theorems": [
    "Verif.Cuda.Deriv.derivative_delivered",
    "Verif.Cuda.Deriv.host_addition_kept",
    "Verif.Cuda.Deriv.block_effect",
    "Verif.Cuda.Deriv.derivative_lost"
   ],
   "note": "Proved for one device. With several devices it is false: Contexts gives the context of the last engine for every device, so the two copies go through the queue of the last device while the addition is done on the right one, and the derivative keeps its old value (derivative_lost, for every number of devices and every device but the last)."
  },
  {
   "property": "C127",
   "status": "proved",
   "theorems": [
    "Verif.Device.queued_graph",
    "Verif.Device.queued_values",
    "Verif.Device.program_local",
    "Verif.Device.runs_exist"
   ],
   "note": "The instructions are those of the program of C124 with alloc, flush and free instructions where the code generator puts them (Verif.Device.whole). One device with one queue, kept in order; a free register gives its memory back at once. Operations with a kernel return a pointer and call an external process, as in the package. A copy to the device takes its value when it is issued: no operation of the host overwrites memory in this build. Without let statements, OpenCL operations and replaced nodes. That runs exist is shown for a device with unlimited memory."
  },
  {
   "property": "C128",
   "status": "partial",
   "theorems": [
    "Verif.Device.memory_suffices",
    "Verif.Device.memory_suffices_code_partial",
    "Verif.Device.many_scalars_fail",
    "Verif.Device.memory_not_enough",
    "Verif.BFC.repaired_enough",
    "Verif.BFC.code_enough_allocs",
    "Verif.BFC.code_enough_partial"
   ],
   "note": "False of the code: each register takes a multiple of 32 bytes, but 2.5 times the plain size and 256 bytes are reserved, so a program with one float32 scalar and eleven functions of it on the device runs out of memory at its twelfth register (many_scalars_fail, memory_not_enough, with either allocator). Proved when at most eight registers on the device have less than 13 bytes (memory_suffices for the allocator with the pointer reset; memory_suffices_code_partial for the allocator as it is in histories without stale pointers; code_enough_allocs for it in all histories without frees). The general fact is repaired_enough: rounded sizes that fit together never run out, whatever is freed. Memory that operations take for themselves during execution is not modelled."
  },
  {
   "property": "C129",
   "status": "partial",
   "theorems": [
    "Verif.AD.second_derivative",
    "Verif.AD.grad_over",
    "Verif.AD.second_derivative_wrong",
    "Verif.AD.second_derivative_is_first"
   ],
   "note": "Proved for any graph that contains the original nodes and the gradient, in any order and with any sharing, if no node between the gradient and the inputs asked for carries a derivative of the first call; this includes the derivatives for two different inputs of which only one was asked for first. The full claim is false for the code: nodes that carry a derivative are skipped (differentiation.go 219-223). For x*x*x at 1 the second call answers 3 instead of 6, for exp(x*2) it returns the first derivative itself, at every x. Scalar operations only."
  },
  {
   "property": "C130",
   "status": "partial",
   "theorems": [
    "Verif.Elem.inverse64_error",
    "Verif.Elem.inverse64_close",
    "Verif.Elem.inverse64_one",
    "Verif.Elem.inverse32_exact",
    "Verif.Elem.inverse32_error",
    "Verif.Elem.inverse32_wrong",
    "Verif.Elem.refined32_error",
    "Verif.Elem.lambert_error",
    "Verif.Elem.lambert_close",
    "Verif.Elem.lambert_large",
    "Verif.Elem.anguita_close",
    "Verif.Elem.anguita_odd",
    "Verif.Elem.anguita_panics",
    "Verif.Elem.fastSigmoid_wrong"
   ],
   "note": "Proved: the reciprocal in double precision has a relative error below 4.3e-11 for all normal numbers below 2^1021; the continued fraction is the tangent up to x^15/(15*135135^2); the parabola is within 0.04 of it. Violated: the reciprocal in single precision returns the unrefined guess (math_fast.go 70) and is off by up to an eighth, 1/1.5 = 0.75, where the refined one would be off by 1/4096; the continued fraction exceeds 1 from 10 on, grows without bound and turns the sign of the gradient; the parabola panics at zero; sigmoid is 0 everywhere. Bits are modelled exactly, the arithmetic of the refinement and of the tangents is that of the reals; reciprocals of zero, subnormal, infinite and very large numbers are not covered. With the build tag the package does not compile, because _inverseSqrtf64 is only defined without it; the functions are taken as they stand."
  },
  {
   "property": "C131",
   "status": "partial",
   "theorems": [
    "Verif.Graph.chooseGraph_none",
    "Verif.Graph.chooseGraph_right",
    "Verif.Graph.graphs_apart",
    "Verif.Graph.graphs_kept",
    "Verif.Graph.chooseGraph_wrong",
    "Verif.Graph.foreign_constant_wrong",
    "Verif.Graph.foreign_constant_collision"
   ],
   "note": "The exact condition of a refusal is proved for all operand lists. Isolation (graphs_apart, graphs_kept) is proved for all interleavings of calls on any number of graphs, under the rule that a constant which is a member of a graph is used only with operands of that graph and that nothing but constants is graphless. Without the rule the property is false: ApplyOp takes the graph of the first operand that has one (op.go 172-177), while AllSameGraph ignores constants (collections.go 141-152), so a constant of graph A written before a variable of graph B puts the operation into A; the variable is added to A, its ID is overwritten with A's next number, and B then has two nodes with the same ID and none with the old one (chooseGraph_wrong, foreign_constant_wrong). If the hash of a foreign constant collides, AddNode adds the constant itself instead of a copy, in any order (foreign_constant_collision). Nodes made with NewUniqueNode without a graph, removals and clones of graphs are not part of the programs."
  },
  {
   "property": "C132",
   "status": "partial",
   "theorems": [
    "Verif.Blase.batched_right",
    "Verif.Blase.orderly_iff",
    "Verif.Blase.ext_no_flush",
    "Verif.Blase.queued_waits",
    "Verif.Blase.repeat_stale",
    "Verif.Blase.inplace_overtakes",
    "Verif.Blase.quick_worker",
    "Verif.Blase.flush_iff",
    "Verif.Blase.reused_register_flushes"
   ],
   "note": "Verif/Blase/Mixed.lean. Proved for all programs, memories, meanings of the operations and times of the worker: the memory is that of the sequential run if, unless there is a flush in between, no operation that calls an external library but runs at once reads a queued result, and no operation that runs at once overwrites what an earlier queued one reads or writes (a decidable test, proved equivalent). Without these conditions the claim is false for the code: an operation with CallsExtern is never preceded by a flush, so a repetition (CallsExtern true only to get preallocated memory) of a queued product copies the memory before the product is computed, and an operation working in place overwrites an operand of a waiting product; with a quick worker the same programs are right. Registers are addresses here, all operations are mutable, views, statements and devices are left out, and the queue is ideal (its own defects are C84). Also proved: with new registers there is at most one flush before an operation, and exactly if it needs one; with a reused register the flushes are repeated."
  },
  {
   "property": "C133",
   "status": "partial",
   "theorems": [
    "Verif.Graph.relet_expr",
    "Verif.Graph.relet_others",
    "Verif.Graph.relet_W",
    "Verif.Graph.request_right",
    "Verif.Graph.stale_dependant"
   ],
   "note": "Graph/Relet.lean. What the nodes stand for after the change is proved for every graph. Later requests are right when every node that carries the same hash and looks like the request has the same operands (request_right). False of the code otherwise, for every hash function (stale_dependant): the hash of a node is computed once, so after the change the old slice, asked for again, is a new node with the hash of the changed one, and an operation that had been applied to the changed node is returned when it is applied to the new one. After a := x[0]; b := -a; UnsafeLet(a, S(1)), the negation of x[0] is the negation of x[1]. The graph is assumed to hold no second node with the hash of the changed one and the changed node to be no constant (relet_W, stale_dependant). Not looked at: the shape of the node, which UnsafeLet leaves as it was."
  },
  {
   "property": "C134",
   "status": "partial",
   "theorems": [
    "Verif.Tape.at_never_run",
    "Verif.Tape.at_register",
    "Verif.Tape.first_register",
    "Verif.Tape.at_reads_first",
    "Verif.Tape.at_run",
    "Verif.Tape.at_works_iff",
    "Verif.Tape.at_forward",
    "Verif.Tape.at_goroutines"
   ],
   "note": "Refuted for two machines, proved for the third on a family of graphs. atOp says that it is a statement (op_tensor.go 68), so WithOp makes the node of At a statement. Tape machine, for every program: no instruction is generated for it, nothing is bound to it and its operation is never called (at_never_run); its register is 0 (at_register), which is also that of the first node (first_register), so every operation on the result of At, and every read of it, reads the register of the first node instead (at_reads_first; needs only that operands come first and that nothing is merged). For two inputs, At of either and an operation on the result: the operation is handed the first input as a whole, whatever element of whichever input was asked for (at_run), so At works exactly if the element is the first input (at_works_iff). Define-by-run machine, for every program: an operation that uses the node stops the run (at_forward; in the code with a panic). Goroutine-per-node machine: computes the element and the operation on it, in every schedule (at_goroutines, for that family). The three-machine agreement of C115 excludes nodes made by At, the tape-machine theorems (C10, C109) operations that use them."
  },
  {
   "property": "C135",
   "status": "partial",
   "theorems": [
    "Verif.Graph.inMachine_iff",
    "Verif.Graph.own_passes",
    "Verif.Graph.foreign_passes_iff",
    "Verif.Graph.refused",
    "Verif.Graph.set_value",
    "Verif.Graph.set_shares",
    "Verif.Graph.set_constant",
    "Verif.Graph.set_register",
    "Verif.Graph.set_first_register",
    "Verif.Graph.let_iff"
   ],
   "note": "Proved: exactly which nodes pass the test (those whose ID is less than the number of nodes of the machine's graph), that all nodes of the graph do, and that an accepted Set gives a the value of b and changes nothing else. Refuted: a node of another graph passes whenever the machine's graph has its ID (foreign_passes_iff); the value is shared, not copied (set_shares); a constant can be set without an error and without effect (set_constant); a node without value and register, as one of another graph or one made after compiling, hands over what is in register 0 (set_first_register). Values are modelled as addresses; Let with operands that are not values is C80."
  },
  {
   "property": "C136",
   "status": "partial",
   "theorems": [
    "Verif.Tape.last_writer",
    "Verif.Tape.frag_right",
    "Verif.Tape.frag_same",
    "Verif.Tape.frag_incomplete",
    "Verif.Tape.frag_ok_iff",
    "Verif.Tape.frag_wrong"
   ],
   "note": "Proved: a node whose register is not written again stays bound as RunAll binds it; exactly when Run succeeds. Refuted: after any Run all nodes with one register are bound to the same memory (frag_same), so that an intermediate result is lost (frag_wrong); a fragment that leaves a register of the program empty is reported as failed although it was executed (frag_incomplete). Run is called nowhere in the repository and its argument has an unexported type."
  },
  {
   "property": "C137",
   "status": "proved",
   "theorems": [
    "Verif.Pool.Sizers.sizers_own",
    "Verif.Pool.Sizers.sizers_apart"
   ],
   "note": "Proved by comparison with goroutines that make their own list each time. sync.Pool and sync.Map are taken as documented: one borrow, one fill and one return are single steps; two goroutines that make the pool of a length at once lose lists, which is a step of the model. ApplyOp's discipline, one list per goroutine that is given back once, is part of the model."
  },
  {
   "property": "C138",
   "status": "partial",
   "theorems": [
    "Verif.Tape.Options.set_test",
    "Verif.Tape.Options.clear_test",
    "Verif.Tape.Options.tape_panics_iff",
    "Verif.Tape.Options.tape_flags",
    "Verif.Tape.Options.tape_watch",
    "Verif.Tape.Options.tape_bind",
    "Verif.Tape.Options.tape_prog",
    "Verif.Tape.Options.copies_iff",
    "Verif.Tape.Options.binds_iff",
    "Verif.Tape.Options.watching_stops_tracing",
    "Verif.Tape.Options.binding_narrows",
    "Verif.Tape.Options.lisp_panics_iff",
    "Verif.Tape.Options.lisp_flags",
    "Verif.Tape.Options.lisp_runs",
    "Verif.Tape.Options.lisp_runs_something",
    "Verif.Tape.Options.lisp_watch"
   ],
   "note": "For all lists of options: when the constructors panic (equivalences), every switch of both machines (equivalences), the watchlists in order, the nodes of BindDualValues, the program that is run, what the Lisp machine runs (the last of the two options decides, and something is always run). Refuted: TraceExec is to copy the executed values into the nodes, but with a node in a watchlist only the values of watched nodes are copied; BindDualValues() asks for the derivatives of all nodes, and a further BindDualValues(x) leaves only that of x (both characterised by equivalences). WithLogger, WithValueFmt and WithEngine are not modelled; a precompiled program is taken to come with its map of nodes to registers."
  },
  {
   "property": "C139",
   "status": "partial",
   "theorems": [
    "Verif.Tape.Watched.node_found",
    "Verif.Tape.Watched.some_found",
    "Verif.Tape.Watched.blamed_right",
    "Verif.Tape.Watched.blamed_last",
    "Verif.Tape.Watched.code_order",
    "Verif.Tape.Watched.logAll_spec",
    "Verif.Tape.Watched.input_not_logged",
    "Verif.Tape.Watched.frag_panics",
    "Verif.Tape.Watched.frag_constant",
    "Verif.Tape.Watched.frag_quiet"
   ],
   "note": "For all programs whose numbered instructions carry the number of their node: a run from any counter is not stopped by logging, and logs exactly the allocations and operations that touch what is watched; a failing allocation, load or operation is blamed on its node. Refuted: watching an input logs nothing (input_not_logged); a failing read or transport is blamed on the node of the last instruction without a number (blamed_last); after a complete run, Run of a fragment with an operation panics inside the logging even if nothing is watched (frag_panics), and what is logged of a fragment does not depend on its instructions (frag_constant). The text logged and the Lisp machine's log are not modelled."
  },
  {
   "property": "C140",
   "status": "partial",
   "theorems": [
    "Verif.Value.Random.value_fits",
    "Verif.Value.Random.type_agrees",
    "Verif.Value.Random.element",
    "Verif.Value.Random.fails_iff",
    "Verif.Value.Random.same_clock"
   ],
   "note": "For all distributions, parameters, shapes, generators and clock readings: type, shape and number of elements of the value are those of the node, each element is the draw of its number with the parameters of the node, converted as the type asks, and executing fails exactly for types other than the floats. Refuted: independence. Every execution seeds a new generator with the clock, so that two nodes of one distribution executed while the clock shows the same give the same numbers (same_clock). The first random node of a type and shape in a graph is modelled; a second is replaced by the first, which is the defect random_substituted of C04. The generators themselves are not modelled."
  },
  {
   "property": "C141",
   "status": "partial",
   "theorems": [
    "Verif.Value.Conv.number_kept",
    "Verif.Value.Conv.value_kept",
    "Verif.Value.Conv.types_agree",
    "Verif.Value.Conv.type_dtype",
    "Verif.Value.Conv.value_fails_iff",
    "Verif.Value.Conv.scalar_iff",
    "Verif.Value.Conv.scalar_agrees",
    "Verif.Value.Conv.one_zero",
    "Verif.Value.Conv.one_zero_panic",
    "Verif.Value.Conv.node_panics_iff",
    "Verif.Value.Conv.node_fits",
    "Verif.Value.Conv.constant_panics_iff",
    "Verif.Value.Conv.constant_fits",
    "Verif.Value.Conv.types_differ"
   ],
   "note": "Proved for all values, nested dual values included, and without further options to the constructors. False of the code: a tensor without dimensions gets a scalar type from NodeFromAny and a tensor type of no dimensions from NewConstant (types_differ); NodeFromAny panics for a dual value that holds such a tensor, although it was converted (node_panics_iff); the package's own number types are accepted by anyToValue and make anyToScalar panic (scalar_iff)."
  },
  {
   "property": "C142",
   "status": "partial",
   "theorems": [
    "Verif.Lisp.Watched.run_eq",
    "Verif.Lisp.Watched.backward_logged_iff",
    "Verif.Lisp.Watched.source_logged_iff",
    "Verif.Lisp.Watched.unwatched_logged",
    "Verif.Lisp.Watched.watched_more",
    "Verif.Lisp.Watched.silent"
   ],
   "note": "For the first run of a machine in which nothing fails, on one device: what is written is determined for every node and every instruction (run_eq), and logging never stops the run. The equivalences hold for differentiations, inputs and random nodes. False of the code: with a logger something is written about every node that executes an operation, whatever is watched and even without LogFwd, because some lines do not ask (unwatched_logged)."
  },
  {
   "property": "C143",
   "status": "partial",
   "theorems": [
    "Verif.Elem.Dispatch.table_right",
    "Verif.Elem.Dispatch.type_back",
    "Verif.Elem.Dispatch.newOp_injective",
    "Verif.Elem.Dispatch.tensor_value",
    "Verif.Elem.Dispatch.scalar_value",
    "Verif.Elem.Dispatch.other_panics",
    "Verif.Elem.Dispatch.other_width"
   ],
   "note": "Proved for both floating-point types, the methods of the engine being assumed to compute what they are named after (Faithful; the tensor library is not part of this code). False of the code for other element types: the operation has no operator and panics on every tensor (other_panics). A value of the other width makes it panic (scalars), fail (tensors, no method) or succeed (tensors, method of the engine), see other_width."
  }
 ]
}