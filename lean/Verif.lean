import Verif.Bitmap.Theorems
import Verif.Graph.OpHash
import Verif.Graph.Queries
import Verif.Graph.GradEntry
import Verif.Graph.Clone
import Verif.Graph.Subgraph
import Verif.Coll.Theorems
import Verif.Shape.KeepDims
import Verif.BFC.Theorems
import Verif.BFC.Enough
import Verif.Graph.Remove
import Verif.Graph.Worlds
import Verif.Graph.MachineSet
import Verif.Graph.Dot
import Verif.Graph.Relet
import Verif.Tape.Theorems
import Verif.Tape.FromGraph
import Verif.Tape.Statements
import Verif.Tape.At
import Verif.Tape.Fragment
import Verif.Tape.Options
import Verif.Tape.Watched
import Verif.Tape.Blank
import Verif.AD.Grad
import Verif.Stab.Theorems
import Verif.Lisp.Grad
import Verif.Lisp.TensorExample
import Verif.Lisp.Tensordot
import Verif.Lisp.Roots
import Verif.Lisp.Watched
import Verif.LinAlg.Theorems
import Verif.LinAlg.Shared
import Verif.Shape.Concat
import Verif.XVM.Theorems
import Verif.XVM.Life
import Verif.XVM.Agree
import Verif.Solver.Theorems
import Verif.Solver.Cache
import Verif.NN.Conv
import Verif.NN.MaxPoolGrad
import Verif.NN.SparsemaxGrad
import Verif.NN.Formulas
import Verif.NN.Softmax
import Verif.NN.MinMax
import Verif.Shape.Gather
import Verif.Shape.Infer
import Verif.Shape.Sizes
import Verif.Shape.SliceStep
import Verif.Shape.SliceIncr
import Verif.Shape.Tensordot
import Verif.Shape.TensordotDo
import Verif.Shape.TensordotAxes
import Verif.NN.Upsample
import Verif.NN.Yolo
import Verif.NN.YoloTargets
import Verif.AD.NotDiff
import Verif.NN.AvgPool
import Verif.NN.Dropout
import Verif.NN.BatchNorm
import Verif.NN.BatchNorm32
import Verif.NN.GroupNorm
import Verif.NN.CTCSpec
import Verif.NN.CTC
import Verif.NN.CTCGrad
import Verif.Shape.ByIndices
import Verif.Types.Model
import Verif.Types.Theorems
import Verif.Types.Conv
import Verif.AD.TensorGrad
import Verif.AD.Symbolic
import Verif.AD.SymbolicOps
import Verif.AD.SymbolicExt
import Verif.AD.SymbolicMore
import Verif.AD.TensorSparse
import Verif.AD.TensorLemmas
import Verif.AD.TensorOps
import Verif.AD.TensorElem
import Verif.AD.TensorMore
import Verif.AD.TensorExample
import Verif.AD.TensorConv
import Verif.AD.ConvNet
import Verif.AD.ConvNetValue
import Verif.AD.TensorNorm
import Verif.AD.TensorBatched
import Verif.AD.Attention
import Verif.AD.Second
import Verif.Value.Theorems
import Verif.Value.Equal
import Verif.Value.Read
import Verif.Value.Bind
import Verif.Value.Managed
import Verif.Value.Weights
import Verif.Value.Random
import Verif.Value.Convert
import Verif.Value.Elem
import Verif.NN.Affine
import Verif.Blase.Queue
import Verif.Blase.Gemm
import Verif.Blase.Mixed
import Verif.RunLoop.Batched
import Verif.RunLoop.Lisp
import Verif.RunLoop.Watch
import Verif.RunLoop.Mode
import Verif.Train.Bind
import Verif.Train.Loop
import Verif.Train.Scalar
import Verif.Train.Example
import Verif.Train.Tensor
import Verif.Train.Symbolic
import Verif.Train.Build
import Verif.Train.Regression
import Verif.Train.Network
import Verif.Train.Networks
import Verif.Train.TensorExample
import Verif.Train.LispExample
import Verif.Misc.Lift
import Verif.Misc.External
import Verif.Misc.Clip
import Verif.Misc.Engine
import Verif.Misc.Args
import Verif.Misc.Axes
import Verif.Pool.Shapes
import Verif.Pool.Unbind
import Verif.Pool.Sizers
import Verif.Cuda.Launch
import Verif.Cuda.Engine
import Verif.Cuda.Unary
import Verif.Cuda.Blas
import Verif.Cuda.Transfer
import Verif.Cuda.Deriv
import Verif.Round.Near
import Verif.Round.Grad
import Verif.Round.Elem
import Verif.Round.Ops
import Verif.Round.Train
import Verif.Round.Nets
import Verif.Round.Fl
import Verif.Device.Insert
import Verif.Device.Alloc
import Verif.Device.Whole
import Verif.Device.Flush
import Verif.Device.Memory
import Verif.Misc.ClipRound
import Verif.Elem.Recip
import Verif.Elem.Tanh
import Verif.Elem.Dispatch
