import Verif.Model.Roots
/-!
# Model of `numga/multivector/extension/logexp.py`

`register` returns the undecorated function, so calls between the functions of that file skip the dispatch conditions; method
calls do not.  The parameter `n` of the bisections is 15 in the code.
-/
namespace Verif.Model
variable (A : Alg)

/-- The implementations registered for `exp`, numga/multivector/extension/logexp.py:29-44. -/
inductive ExpRule where
  | empty | scalar | degenerate | default
  deriving DecidableEq, Repr

/-- The conditions and implementations registered for `exp`, numga/multivector/extension/logexp.py:29-44.  The last condition
is `s.inside.bivector`, without a call: a function object, which counts as true. -/
def expOptions : List ((SubSpace → Option Bool) × ExpRule) :=
  [(equalsEmpty A, .empty), (equalsScalar A, .scalar), (SubSpace.isDegenerate A, .degenerate), (fun _ => some true, .default)]

/-- The conditions registered for `motor_log`, numga/multivector/extension/logexp.py:57-63; `true` stands for the first one,
which restricts to the bivector part. -/
def motorLogOptions : List ((SubSpace → Option Bool) × Bool) :=
  [(fun S => do if (← A.kReflection 2).contains S then S.isDegenerateScalar A else some false, true), (insideEven A, false)]

namespace MV
variable {R : Type} [Field R] [DecidableEq R] (rt : Roots R) (fuel : Nat)

/-- `motor_log_linear`, numga/multivector/extension/logexp.py:66-70. -/
def motorLogLinear (m : MV R) : Except Fail (MV R) := require (insideEven A m.sub) (lift (m.restrictGrades A [2]))
/-- `exp_linear`, numga/multivector/extension/logexp.py:71-76. -/
def expLinear (b : MV R) : Except Fail (MV R) := require (insideBivector A b.sub) (lift (b.add A (.num 1)))

/-- The function `motor_log_linear_normalized`, numga/multivector/extension/logexp.py:83-86. -/
def logLinearNormalized (m : MV R) : Except Fail (MV R) := do
  let d ← (← lift (m.restrictSubspace A (← lift A.selfReverse))).inverse A fuel
  lift (m.bivectorProduct A d)
/-- The method `motor_log_linear_normalized`, numga/multivector/extension/logexp.py:79-86. -/
def motorLogLinearNormalized (m : MV R) : Except Fail (MV R) :=
  require (do some ((← A.kReflection 4).contains m.sub)) (m.logLinearNormalized A fuel)
/-- `exp_linear_normalized`, numga/multivector/extension/logexp.py:87-92. -/
def expLinearNormalized (b : MV R) : Except Fail (MV R) :=
  require (insideBivector A b.sub) (do (← lift (b.add A (.num 1))).normalized A rt fuel)

/-- `exp_quadratic` and the function `exp_cayley`, numga/multivector/extension/logexp.py:94-100. -/
def expCayley (b : MV R) : Except Fail (MV R) := do
  let r ← lift ((← b.truediv A fuel (.num 2)).add A (.num 1))
  (← lift (r.squared A)).truediv A fuel (.mv (← lift (r.symmetricReverse A)))
/-- `motor_log_quadratic` and the function `motor_log_cayley`, numga/multivector/extension/logexp.py:101-106. -/
def motorLogCayley (m : MV R) : Except Fail (MV R) := do
  lift ((← (← m.motorSquareRoot A rt fuel).logLinearNormalized A fuel).mul A (.num 2))

/-- The loop of `motor_log_bisect`, numga/multivector/extension/logexp.py:115-116. -/
def rootLoop : Nat → MV R → Except Fail (MV R)
  | 0, m => .ok m
  | n + 1, m => do rootLoop n (← m.motorSquareRoot A rt fuel)
/-- `motor_log_bisect`, numga/multivector/extension/logexp.py:110-117. -/
def motorLogBisect (n : Nat) (m : MV R) : Except Fail (MV R) :=
  require (insideEven A m.sub) do
    let m ← m.rootLoop A rt fuel n
    lift ((← m.motorLogCayley A rt fuel).mul A (.num (2 ^ n)))
/-- The loop of `exp_bisect`, numga/multivector/extension/logexp.py:124-125. -/
def squareLoop : Nat → MV R → Except Fail (MV R)
  | 0, m => .ok m
  | n + 1, m => do squareLoop n (← lift (m.squared A))
/-- `exp_bisect`, numga/multivector/extension/logexp.py:118-126. -/
def expBisect (n : Nat) (b : MV R) : Except Fail (MV R) := do
  squareLoop A n (← (← b.truediv A fuel (.num (2 ^ n))).expCayley A fuel)

/-- `exp`, numga/multivector/extension/logexp.py:28-44; `e` is the exponential function of the backend. -/
def exp (e : R → R) (n : Nat) (b : MV R) : Except Fail (MV R) :=
  match Dispatch.matchLoop b.sub (expOptions A) with
  | none => .error .noMatch
  | some .empty => do .ok (MV.default (← lift A.scalar))
  | some .scalar => lift (b.copy (b.vals.map e))
  | some .degenerate => lift (b.add A (.num 1))
  | some .default => b.expBisect A fuel n

/-- `motor_log`, numga/multivector/extension/logexp.py:56-63. -/
def motorLog (n : Nat) (m : MV R) : Except Fail (MV R) :=
  match Dispatch.matchLoop m.sub (motorLogOptions A) with
  | none => .error .noMatch
  | some true => lift (m.restrictGrades A [2])
  | some false => m.motorLogBisect A rt fuel n

end MV
end Verif.Model
