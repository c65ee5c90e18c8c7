import Verif.Model.Inverse
/-!
# Model of `numga/multivector/extension/norms.py` and `numga/multivector/extension/roots.py`

Coefficients are elements of a field; what is needed of floating-point arithmetic beyond the field operations is the
parameter `Roots`.  Where numpy produces a non-finite number the model stops with `Fail.nan` (root of a negative number) or
`Fail.divZero` (division by zero), except where `nan_to_num` replaces an infinity at once.
-/
namespace Verif.Model

/-- Elementwise functions of the numeric backend: `values ** 0.5` (`none`: the result is `nan`), `abs`, and the number that
`np.nan_to_num` puts in place of `inf`, numga/multivector/multivector.py:400-406 and numga/backend/numpy/context.py:51-52,67-68. -/
structure Roots (R : Type) where
  sqrt : R → Option R
  abs : R → R
  big : R

variable (A : Alg)

/-- The implementations registered for `square_root`, numga/multivector/extension/roots.py:16-33. -/
inductive SqrtRule where
  | scalar | degenerate | study
  deriving DecidableEq, Repr

/-- `s.inside.scalar()`, numga/subspace/namespaces.py:14-20. -/
def insideScalar (S : SubSpace) : Option Bool := do some ((← A.scalar).contains S)
/-- `s.inside.even_grade()`, numga/subspace/namespaces.py:14-20. -/
def insideEven (S : SubSpace) : Option Bool := do some ((← A.evenGrade).contains S)
/-- `s.inside.bivector()`, numga/subspace/namespaces.py:14-20. -/
def insideBivector (S : SubSpace) : Option Bool := do some ((← A.bivector).contains S)
/-- `s.equals.scalar()`, numga/subspace/namespaces.py:31-37. -/
def equalsScalar (S : SubSpace) : Option Bool := do some (S == (← A.scalar))
/-- `s.equals.empty()`, numga/subspace/namespaces.py:31-37. -/
def equalsEmpty (S : SubSpace) : Option Bool := do some (S == (← A.empty))
/-- `s.is_study and s.restrict.nonscalar().is_degenerate`, numga/multivector/extension/roots.py:19. -/
def isDegenerateStudy (S : SubSpace) : Option Bool := do
  if ← S.isStudy A then (← S.restrictSubspace A (← A.nonscalar)).isDegenerate A else some false

/-- The conditions and implementations registered for `square_root`, numga/multivector/extension/roots.py:16-33. -/
def sqrtOptions : List ((SubSpace → Option Bool) × SqrtRule) :=
  [(insideScalar A, .scalar), (isDegenerateStudy A, .degenerate), (SubSpace.isStudy A, .study)]

/-- The implementations registered for `normalized`, numga/multivector/extension/norms.py:57-72. -/
inductive NormRule where
  | empty | scalar | study
  deriving DecidableEq, Repr

/-- The conditions and implementations registered for `normalized`, numga/multivector/extension/norms.py:57-72. -/
def normOptions : List ((SubSpace → Option Bool) × NormRule) :=
  [(fun S => do equalsEmpty A (← S.symmetricReverse A), .empty), (fun S => do equalsScalar A (← S.symmetricReverse A), .scalar),
    (fun S => do (← S.symmetricReverse A).isStudy A, .study)]

/-- Dispatch with a single registered implementation that has a condition, numga/dynamic_dispatch.py:18-31. -/
def require {α : Type} (c : Option Bool) (r : Except Fail α) : Except Fail α :=
  match c with
  | some true => r
  | some false => .error .noMatch
  | none => .error .raised

namespace MV
variable {R : Type} [Field R] [DecidableEq R] (rt : Roots R)

/-- One element of `values ** 0.5`, numga/multivector/multivector.py:398-399. -/
def sqrtVal (a : R) : Except Fail R :=
  match rt.sqrt a with
  | some r => .ok r
  | none => .error .nan

/-- One element of `values ** (-0.5)`, numga/multivector/extension/roots.py:39. -/
def invSqrtVal (a : R) : Except Fail R :=
  if a = 0 then .error .divZero
  else match rt.sqrt a with
    | some r => .ok (1 / r)
    | none => .error .nan

/-- `sqrt`, numga/multivector/multivector.py:398-399. -/
def sqrt (x : MV R) : Except Fail (MV R) := do lift (x.copy (← x.vals.mapM (sqrtVal rt)))
/-- `abs`, numga/multivector/multivector.py:405-406. -/
def abs (x : MV R) : Option (MV R) := x.copy (x.vals.map rt.abs)

/-- `x.inverse().nan_to_num(0)` for `x` in the scalars or empty, numga/multivector/extension/roots.py:25,32: an infinite
coefficient becomes the largest finite number.  The inverse of the empty multivector is a scalar, too
(numga/multivector/extension/inverse.py:35-38). -/
def inverseNan (fuel : Nat) (x : MV R) : Except Fail (MV R) :=
  match x.inverse A fuel with
  | .error .divZero => do lift (construct [rt.big] (← lift A.scalar))
  | r => r

/-- `study_norm_squared`, numga/multivector/extension/norms.py:17-20. -/
def studyNormSquared (x : MV R) : Except Fail (MV R) :=
  require (x.sub.isStudy A) (lift (call (Factory.studyNormSquared A x.sub) [x, x]))
/-- `study_norm`, numga/multivector/extension/norms.py:21-24. -/
def studyNorm (x : MV R) : Except Fail (MV R) :=
  require (x.sub.isStudy A) (do (← x.studyNormSquared A).sqrt rt)

/-- The implementations of `square_root`, numga/multivector/extension/roots.py:16-33. -/
def runSqrt (fuel : Nat) (s : MV R) : SqrtRule → Except Fail (MV R)
  | .scalar => s.sqrt rt
  | .degenerate => do
    let s0 ← lift (s.restrictSubspace A (← lift A.scalar))
    let ns ← lift (s.restrictSubspace A (← lift A.nonscalar))
    let r ← s0.sqrt rt
    let ci ← inverseNan A rt fuel (← lift (r.rmul A (.num 2)))
    lift (r.add A (.mv (← lift (ns.mul A (.mv ci)))))
  | .study => do
    let s0 ← lift (s.restrictSubspace A (← lift A.scalar))
    let ns ← lift (s.restrictSubspace A (← lift A.nonscalar))
    let c ← (← (← lift (s0.add A (.mv (← s.studyNorm A rt)))).truediv A fuel (.num 2)).sqrt rt
    let ci ← inverseNan A rt fuel (← lift (c.mul A (.num 2)))
    lift (c.add A (.mv (← lift (ns.mul A (.mv ci)))))

/-- `square_root`, numga/multivector/extension/roots.py:6-33. -/
def squareRoot (fuel : Nat) (s : MV R) : Except Fail (MV R) :=
  match Dispatch.matchLoop s.sub (sqrtOptions A) with
  | none => .error .noMatch
  | some rule => s.runSqrt A rt fuel rule

/-- `inverse_square_root`, numga/multivector/extension/roots.py:36-46. -/
def inverseSquareRoot (fuel : Nat) (s : MV R) : Except Fail (MV R) := do
  if s.sub = (← lift A.scalar) then lift (s.copy (← s.vals.mapM (invSqrtVal rt)))
  else (← s.squareRoot A rt fuel).inverse A fuel

/-- `norm_squared`, numga/multivector/extension/norms.py:27-40: the three registered implementations are the same and the
last one has no condition. -/
def normSquared (x : MV R) : Option (MV R) := x.symmetricReverse A
/-- `norm`, numga/multivector/extension/norms.py:43-49. -/
def norm (fuel : Nat) (x : MV R) : Except Fail (MV R) :=
  match insideScalar A x.sub with
  | none => .error .raised
  | some true => lift (x.abs rt)
  | some false => do (← lift (x.normSquared A)).squareRoot A rt fuel

/-- `normalized`, numga/multivector/extension/norms.py:52-72. -/
def normalized (fuel : Nat) (x : MV R) : Except Fail (MV R) :=
  match Dispatch.matchLoop x.sub (normOptions A) with
  | none => .error .noMatch
  | some .empty => .error .raised
  | some .scalar => do
    let s ← (← lift (x.symmetricReverse A)).inverseSquareRoot A rt fuel
    lift (s.mul A (.mv x))
  | some .study => do
    let s ← (← (← lift (x.symmetricReverse A)).squareRoot A rt fuel).inverse A fuel
    lift (s.mul A (.mv x))

/-- `motor_square_root`, numga/multivector/extension/roots.py:49-53. -/
def motorSquareRoot (fuel : Nat) (m : MV R) : Except Fail (MV R) :=
  require (insideEven A m.sub) (do (← lift (m.add A (.num 1))).normalized A rt fuel)
/-- `motor_geometric_mean`, numga/multivector/extension/roots.py:54-57. -/
def motorGeometricMean (fuel : Nat) (l r : MV R) : Except Fail (MV R) :=
  require (do if ← insideEven A l.sub then insideEven A r.sub else some false)
    (do (← lift (l.add A (.mv r))).normalized A rt fuel)

end MV
end Verif.Model
