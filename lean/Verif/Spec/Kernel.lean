import Verif.Model.OperatorFactory
import Verif.Spec.Subspace
/-! # Specification of kernels: small entries, at most one output blade per combination of inputs -/
namespace Verif.Spec
open Model Model.Factory

/-- `idx` is a position of an array of the given shape. -/
def Inside (idx shape : List Nat) : Prop := List.Forall₂ (· < ·) idx shape

/-- All entries are -1, 0 or 1, and with the inputs fixed at most one output has a nonzero entry. -/
structure SmallKernel (k : Tensor Int) : Prop where
  entries : ∀ idx, Inside idx k.shape → k.get idx = -1 ∨ k.get idx = 0 ∨ k.get idx = 1
  single : ∀ ins o o', Inside (ins ++ [o]) k.shape → Inside (ins ++ [o']) k.shape → k.get (ins ++ [o]) ≠ 0 →
    k.get (ins ++ [o']) ≠ 0 → o = o'

/-- The factory functions of one argument that accept operators, numga/operator/factory.py. -/
def unaryFunctions (A : Alg) : List (Arg Int → Option (Operator Int)) :=
  [scalarNegation A, pseudoscalarNegation A, reverse A, involute A, conjugate A, rightComplement A, leftComplement A,
   rightComplementDual A, leftComplementDual A, leftHodge A, rightHodge A, rightHodgeInverse A, leftHodgeInverse A,
   nondegenerate A, degenerate A, symmetricReverse A, symmetricInvolute A, symmetricConjugate A, symmetricScalarNegation A,
   symmetricPseudoscalarNegation A, squared A, cubed A, inverseFactor A, inverseFactorCompleted A, inverseFactorAlt A,
   inverseFactorCompletedAlt A, euclidianFactorization A]

/-- The factory functions of two arguments that accept operators, numga/operator/factory.py. -/
def binaryFunctions (A : Alg) : List (Arg Int → Arg Int → Option (Operator Int)) :=
  [product A, wedge A, inner A, scalarProduct A, bivectorProduct A, leftContraction A, rightContraction A, antiProduct A,
   antiWedge A, antiInner A, antiScalar A, leftInterior A, rightInterior A, antiLeftInterior A, antiRightInterior A,
   regressive A, commutator A, antiCommutator A, commutatorAnti A, antiCommutatorAnti A, cross A, reverseProduct A,
   involuteProduct A, conjugateProduct A, scalarNegationProduct A, pseudoscalarNegationProduct A, antiReverseProduct A,
   fullSandwich A, completeOp A, inertia A]

/-- What can be built from subspaces with the functions of the factory and the methods of operators, nested in any way.
(`diagonal` with weights chosen by the caller, `mul`/`div` by other numbers and `sum` are not included.) -/
inductive Built (A : Alg) : Arg Int → Prop
  | sub {S} : WfSub A S → Built A (.sub S)
  | un {f v op} : f ∈ unaryFunctions A → Built A v → f v = some op → Built A (.op op)
  | bin {f l r op} : f ∈ binaryFunctions A → Built A l → Built A r → f l r = some op → Built A (.op op)
  | identity {S op} : WfSub A S → Factory.identity S = some op → Built A (.op op)
  | select {v o op} : Built A v → WfSub A o → Factory.select A v o = some op → Built A (.op op)
  | restrict {i o op} : WfSub A i → WfSub A o → Factory.restrict A i o = some op → Built A (.op op)
  | nProduct {l r o op} : Built A l → Built A r → WfSub A o → Factory.nProduct A l r o = some op → Built A (.op op)
  | studyConjugate {S op} : WfSub A S → Factory.studyConjugate A S = some op → Built A (.op op)
  | studyConjugateProduct {l S op} : Built A l → WfSub A S → Factory.studyConjugateProduct A l S = some op → Built A (.op op)
  | symmetricStudyConjugate {S op} : WfSub A S → Factory.symmetricStudyConjugate A S = some op → Built A (.op op)
  | studyNormSquared {S op} : WfSub A S → Factory.studyNormSquared A S = some op → Built A (.op op)
  | sandwich {R S op} : Built A R → WfSub A S → Factory.sandwich A R S = some op → Built A (.op op)
  | reverseSandwich {R S op} : WfSub A R → WfSub A S → Factory.reverseSandwich A R S = some op → Built A (.op op)
  | composeSymmetryOps {x f g op} : Built A x → f ∈ unaryFunctions A → g ∈ unaryFunctions A →
      Factory.composeSymmetryOps A x f g = some op → Built A (.op op)
  | solve {S T op} : WfSub A S → WfSub A T → Factory.solve A S T = some op → Built A (.op op)
  | unaryInverse {o op} : Built A (.op o) → Factory.unaryInverse o = some op → Built A (.op op)
  | fuse {f g axis op} : Built A (.op f) → Built A (.op g) → axis < g.arity → f.fuse g axis = some op → Built A (.op op)
  | squeeze {o op} : Built A (.op o) → o.squeeze A = some op → Built A (.op op)
  | swapaxes {o a b op} : Built A (.op o) → o.swapaxes a b = some op → Built A (.op op)
  | symmetry {o axes op} : Built A (.op o) → o.symmetry A axes = some op → Built A (.op op)
  | gradeSelection {o formula op} : Built A (.op o) → o.gradeSelection A formula = some op → Built A (.op op)
  | selectSubspace {o S op} : Built A (.op o) → WfSub A S → o.selectSubspace A S = some op → Built A (.op op)
  | neg {o} : Built A (.op o) → Built A (.op o.neg)

end Verif.Spec
