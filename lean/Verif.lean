import Verif.Lemmas.Aby3
import Verif.Lemmas.Autograd
import Verif.Lemmas.Compare
import Verif.Lemmas.Conv
import Verif.Lemmas.Encoder
import Verif.Lemmas.Falcon
import Verif.Lemmas.FalconStore
import Verif.Lemmas.Float32
import Verif.Lemmas.Fss
import Verif.Lemmas.Grad
import Verif.Lemmas.GradConv
import Verif.Lemmas.GradNear
import Verif.Lemmas.GradOps
import Verif.Lemmas.GradPool
import Verif.Lemmas.LogRange
import Verif.Lemmas.Program
import Verif.Lemmas.Przs
import Verif.Lemmas.Py
import Verif.Lemmas.RProgram
import Verif.Lemmas.Ring
import Verif.Lemmas.Rst
import Verif.Lemmas.Shape
import Verif.Lemmas.ShapeRel
import Verif.Lemmas.Share
import Verif.Lemmas.Spdz
import Verif.Lemmas.Tanh
import Verif.Lemmas.Training
import Verif.Lemmas.Wraps
import Verif.Lemmas.WrapsT
import Verif.Model.Aby3
import Verif.Model.Algo
import Verif.Model.Approx
import Verif.Model.ArgmaxShape
import Verif.Model.Autograd
import Verif.Model.Broadcast
import Verif.Model.Chebyshev
import Verif.Model.Conv
import Verif.Model.Decompose
import Verif.Model.Derived
import Verif.Model.Dispatch
import Verif.Model.DivideView
import Verif.Model.Encoder
import Verif.Model.Equality
import Verif.Model.Falcon
import Verif.Model.Float32
import Verif.Model.Fss
import Verif.Model.FssView
import Verif.Model.GetShares
import Verif.Model.Grad
import Verif.Model.GradRounded
import Verif.Model.Heap
import Verif.Model.Layer
import Verif.Model.LinearTraining
import Verif.Model.Log
import Verif.Model.Loss
import Verif.Model.MProgram
import Verif.Model.Machine
import Verif.Model.Module
import Verif.Model.NProgram
import Verif.Model.Network
import Verif.Model.Nn
import Verif.Model.Operators
import Verif.Model.Parallel
import Verif.Model.Primitives
import Verif.Model.Printing
import Verif.Model.Program
import Verif.Model.Provider
import Verif.Model.Przs
import Verif.Model.Py
import Verif.Model.RLying
import Verif.Model.RProgram
import Verif.Model.RShapeView
import Verif.Model.Registry
import Verif.Model.Regression
import Verif.Model.Ring
import Verif.Model.Rmatmul
import Verif.Model.Rst
import Verif.Model.RstAccess
import Verif.Model.RstExpr
import Verif.Model.RstLocal
import Verif.Model.RstShape
import Verif.Model.Session
import Verif.Model.Shape
import Verif.Model.ShapeFixed
import Verif.Model.ShapeView
import Verif.Model.Share
import Verif.Model.ShareAccess
import Verif.Model.ShareExpr
import Verif.Model.Spdz
import Verif.Model.SpdzRaise
import Verif.Model.Store
import Verif.Model.Tensor
import Verif.Model.Training
import Verif.Model.Wraps
import Verif.Model.WrapsT
import Verif.Props.Aby3
import Verif.Props.Accuracy
import Verif.Props.Activations
import Verif.Props.AlgoMachine
import Verif.Props.Approx
import Verif.Props.Argmax
import Verif.Props.ArgmaxShape
import Verif.Props.Autograd
import Verif.Props.Blind
import Verif.Props.Broadcast
import Verif.Props.Chebyshev
import Verif.Props.Close
import Verif.Props.Conv
import Verif.Props.ConvMany
import Verif.Props.Decompose
import Verif.Props.Derived
import Verif.Props.Distribute
import Verif.Props.DivideView
import Verif.Props.Encoder
import Verif.Props.Equality
import Verif.Props.Falcon
import Verif.Props.Fibres
import Verif.Props.Float32
import Verif.Props.Fss
import Verif.Props.FssDerived
import Verif.Props.FssView
import Verif.Props.GetShares
import Verif.Props.Grad
import Verif.Props.GradGaps
import Verif.Props.GradPool
import Verif.Props.GradRounded
import Verif.Props.Heap
import Verif.Props.Layer
import Verif.Props.LinearTraining
import Verif.Props.Log
import Verif.Props.LogAccuracy
import Verif.Props.Loss
import Verif.Props.Machine
import Verif.Props.Maclaurin
import Verif.Props.Module
import Verif.Props.NProgram
import Verif.Props.NView
import Verif.Props.Network
import Verif.Props.Nn
import Verif.Props.NnMachine
import Verif.Props.Operators
import Verif.Props.Parallel
import Verif.Props.Places
import Verif.Props.Primitives
import Verif.Props.Program
import Verif.Props.Provider
import Verif.Props.Przs
import Verif.Props.PublicRep
import Verif.Props.RBlind
import Verif.Props.RLying
import Verif.Props.RProgram
import Verif.Props.RShapeView
import Verif.Props.Rare
import Verif.Props.Refusals
import Verif.Props.Regression
import Verif.Props.Ring
import Verif.Props.Rmatmul
import Verif.Props.Robust
import Verif.Props.RobustActivations
import Verif.Props.RobustChebyshev
import Verif.Props.RobustRecip
import Verif.Props.RobustSession
import Verif.Props.RobustSoftmax
import Verif.Props.Rst
import Verif.Props.RstAccess
import Verif.Props.RstExpr
import Verif.Props.RstLinear
import Verif.Props.RstLocal
import Verif.Props.RstShape
import Verif.Props.RstShapeFixed
import Verif.Props.ScaledReplicated
import Verif.Props.Session
import Verif.Props.Sessions
import Verif.Props.Shape
import Verif.Props.ShapeFixed
import Verif.Props.ShapeView
import Verif.Props.Share
import Verif.Props.ShareAccess
import Verif.Props.ShareExpr
import Verif.Props.ShareOps
import Verif.Props.Softmax
import Verif.Props.Sort
import Verif.Props.Spdz
import Verif.Props.SpdzRaise
import Verif.Props.Store
import Verif.Props.Tensor
import Verif.Props.Training
import Verif.Props.Truncation
import Verif.Props.Wraps
import Verif.Props.WrapsT
import Verif.Spec.Accuracy
import Verif.Spec.Algo
import Verif.Spec.ArgmaxShape
import Verif.Spec.Conv
import Verif.Spec.Exact
import Verif.Spec.Falcon
import Verif.Spec.Fss
import Verif.Spec.Network
import Verif.Spec.Operators
import Verif.Spec.Program
import Verif.Spec.RProgram
import Verif.Spec.Ring
import Verif.Spec.Rst
import Verif.Spec.RstShape
import Verif.Spec.Shape
import Verif.Spec.ShapeFixed
import Verif.Spec.Share
import Verif.Spec.Spdz
