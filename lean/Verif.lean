import Verif.Model.Bitops
import Verif.Model.Description
import Verif.Model.Algebra
import Verif.Model.Subspace
import Verif.Spec.Algebra
import Verif.Spec.Clifford
import Verif.Proofs.Bits
import Verif.Proofs.Clifford
import Verif.Proofs.ProductSign
import Verif.Proofs.Description
import Verif.Props.Blades
import Verif.Props.Description
import Verif.Model.Flyweight
import Verif.Spec.Subspace
import Verif.Proofs.Subspace
import Verif.Props.Subspace
import Verif.Model.Tensor
import Verif.Model.Operator
import Verif.Model.Eval
import Verif.Model.OperatorFactory
import Verif.Spec.Multivector
import Verif.Proofs.Tensor
import Verif.Proofs.Operator
import Verif.Proofs.Build
import Verif.Proofs.Squeeze
import Verif.Proofs.Symmetry
import Verif.Proofs.Sem
import Verif.Spec.Grades
import Verif.Proofs.Factory
import Verif.Props.Operator
import Verif.Proofs.Factory2
import Verif.Model.Multivector
import Verif.Model.SubspaceOps
import Verif.Proofs.Multivector
import Verif.Proofs.Factory3
import Verif.Proofs.Factory4
import Verif.Proofs.Exterior
import Verif.Proofs.Sandwich
import Verif.Proofs.Outputs
import Verif.Proofs.Values
import Verif.Props.Unary
import Verif.Spec.Products
import Verif.Proofs.Products
import Verif.Proofs.SubspaceOps
import Verif.Props.Products
import Verif.Props.Sandwich
import Verif.Props.Closure
import Verif.Model.Backend
import Verif.Proofs.Slice
import Verif.Proofs.Backend
import Verif.Props.Slice
import Verif.Props.Backend
import Verif.Model.MultivectorFactory
import Verif.Model.Dispatch
import Verif.Model.Arrays
import Verif.Props.Named
import Verif.Props.Dispatch
import Verif.Props.Arrays
import Verif.Model.Inverse
import Verif.Proofs.Inverse
import Verif.Proofs.Inverse2
import Verif.Proofs.Inverse3
import Verif.Props.Inverse
import Verif.Props.InverseLimits
import Verif.Props.Transform
import Verif.Model.Roots
import Verif.Model.LogExp
import Verif.Spec.Roots
import Verif.Proofs.Roots
import Verif.Proofs.Roots2
import Verif.Props.Roots
import Verif.Proofs.LogExp
import Verif.Props.LogExp
import Verif.Model.Int8
import Verif.Spec.Kernel
import Verif.Spec.Int8
import Verif.Proofs.Tidy
import Verif.Proofs.Tidy2
import Verif.Proofs.Int8
import Verif.Props.Kernel
import Verif.Proofs.Faddeev
import Verif.Proofs.Spinor
import Verif.Proofs.Shirokov
import Verif.Proofs.Shirokov2
import Verif.Props.Shirokov
import Verif.Props.Products2
import Verif.Proofs.Polar
import Verif.Props.Derived
import Verif.Props.Spaces
import Verif.Props.Solve
import Verif.Model.Decompose
import Verif.Proofs.Decompose
import Verif.Proofs.Euclid
import Verif.Props.Decompose
import Verif.Props.Translator
import Verif.Proofs.Split
import Verif.Props.Split
import Verif.Model.Names
import Verif.Props.Names
import Verif.Model.Optimized
import Verif.Proofs.Optimized
import Verif.Props.Optimized
import Verif.Spec.Exp
import Verif.Props.OptimizedExp
import Verif.Model.LeastSquares
import Verif.Proofs.LeastSquares
import Verif.Proofs.LeastSquares4
import Verif.Props.LeastSquares
import Verif.Proofs.ExpBound
import Verif.Proofs.ExpMatrix
import Verif.Proofs.Principal
import Verif.Props.InverseRoot
import Verif.Props.ExpAccuracy
import Verif.Props.LogOfExp
import Verif.Model.NumericalNormalize
import Verif.Proofs.SandwichSym
import Verif.Proofs.Newton
import Verif.Proofs.NewtonLocal
import Verif.Proofs.NewtonMotor
import Verif.Proofs.StudyNewton
import Verif.Proofs.NewtonGlobal
import Verif.Props.NumericalNormalize
import Verif.Model.Batch
import Verif.Spec.Batch
import Verif.Proofs.Batch
import Verif.Proofs.BatchCall
import Verif.Proofs.BatchDense
import Verif.Props.Batch
import Verif.Model.SparseMatrix
import Verif.Spec.SparseMatrix
import Verif.Proofs.SparseMatrix
import Verif.Proofs.SparseVector
import Verif.Proofs.SparseBound
import Verif.Props.SparseMatrix
import Verif.Model.Conformal
import Verif.Spec.Vectors
import Verif.Proofs.InverseClosed
import Verif.Proofs.Vectors
import Verif.Proofs.Conformal
import Verif.Proofs.Conformal2
import Verif.Proofs.Conformal3
import Verif.Props.InverseClosed
import Verif.Props.Conformal
import Verif.Model.Integrators
import Verif.Spec.Integrators
import Verif.Proofs.RungeKutta
import Verif.Proofs.Integrators
import Verif.Proofs.RungeKutta2
import Verif.Props.Integrators
import Verif.Model.Physics
import Verif.Proofs.Momentum
import Verif.Proofs.Momentum2
import Verif.Proofs.Physics
import Verif.Proofs.Physics2
import Verif.Proofs.Physics3
import Verif.Proofs.Physics4
import Verif.Proofs.Physics5
import Verif.Proofs.Physics6
import Verif.Props.Physics
import Verif.Proofs.Physics7
import Verif.Proofs.Physics8
import Verif.Proofs.Physics9
import Verif.Props.Physics2
import Verif.Props.Derivation
import Verif.Proofs.Physics10
import Verif.Proofs.Physics11
import Verif.Props.Physics3
import Verif.Proofs.Physics12
import Verif.Proofs.Physics13
import Verif.Props.Physics4
import Verif.Proofs.Physics14
import Verif.Proofs.Physics15
import Verif.Proofs.Physics16
import Verif.Props.Physics5
import Verif.Model.System
import Verif.Proofs.System
import Verif.Props.System
import Verif.Model.LieIntegrators
import Verif.Proofs.LieIntegrators
import Verif.Props.LieIntegrators
import Verif.Props.Newton
import Verif.Spec.Simplex
import Verif.Model.Simplex
import Verif.Proofs.Simplex
import Verif.Props.Simplex
import Verif.Model.Pga2d
import Verif.Proofs.Pga2d
import Verif.Proofs.Pga2dLayouts
import Verif.Props.Pga2d
import Verif.Model.Chain
import Verif.Proofs.Chain
import Verif.Proofs.Chain2
import Verif.Proofs.Chain3
import Verif.Proofs.Chain4
import Verif.Proofs.Chain5
import Verif.Proofs.Chain6
import Verif.Proofs.Chain7
import Verif.Props.Chain
import Verif.Model.Racket
import Verif.Proofs.Racket
import Verif.Proofs.Racket2
import Verif.Proofs.Racket3
import Verif.Proofs.Racket4
import Verif.Props.Racket
import Verif.Props.Racket2
import Verif.Model.RunChain
import Verif.Proofs.Fall
import Verif.Proofs.Fall2
import Verif.Props.Fall
import Verif.Proofs.Turns3
import Verif.Proofs.Stuck
import Verif.Proofs.Stuck2
import Verif.Props.Stuck
import Verif.Model.TestUtil
import Verif.Proofs.TestUtil
import Verif.Proofs.TestUtil2
import Verif.Props.TestUtil
import Verif.Proofs.InverseSix
import Verif.Proofs.InverseSix2
import Verif.Proofs.InverseSix3
import Verif.Proofs.InverseSix4
import Verif.Proofs.InverseSix5
import Verif.Proofs.InverseSix6
import Verif.Props.InverseSix
