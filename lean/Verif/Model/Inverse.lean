import Verif.Model.Multivector
import Verif.Model.SubspaceOps
import Verif.Model.Dispatch
import Mathlib.Algebra.Field.Defs
/-!
# Model of division and inversion: `numga/multivector/extension/inverse.py` and `numga/multivector/multivector.py`

Coefficients are elements of a field.  numpy does not raise when dividing by zero but goes on with `inf` and `nan`, which
are not elements of the field: the model stops with `Fail.divZero` there.  The recursion of `inverse` through dispatch
is modelled with a bound on its depth; the theorems show that the bound does not matter.
-/
namespace Verif.Model

/-- How a call can fail: with an exception, by not finding an implementation (numga/dynamic_dispatch.py:23), with a
non-finite number (division by zero, root of a negative number), or by exceeding the depth bound of the model. -/
inductive Fail where
  | raised | noMatch | divZero | nan | fuel
  deriving DecidableEq, Repr

/-- Exceptions of the parts of the model that only return `none` for them. -/
def lift {α : Type} : Option α → Except Fail α
  | some a => .ok a
  | none => .error .raised

/-- The implementations registered for `inverse`, numga/multivector/extension/inverse.py:35-44,54-78,92-98; those made by
`simplify_inverses` only differ in their conditions. -/
inductive InvRule where
  | empty | scalar
  | squared | reverse | conjugate | scalarNegation | pseudoscalarNegation | involute
  | bivector | trivector
  deriving DecidableEq, Repr

variable (A : Alg)

/-- `simplify_inverses(n + 1)`, numga/multivector/extension/inverse.py:47-78. -/
def simplifyInverses (n : Nat) : List ((SubSpace → Option Bool) × InvRule) :=
  [(SubSpace.isSquaredSimple A n, .squared), (SubSpace.isReverseSimple A n, .reverse),
    (SubSpace.isConjugateSimple A n, .conjugate), (SubSpace.isScalarNegationSimple A n, .scalarNegation),
    (SubSpace.isPseudoscalarNegationSimple A n, .pseudoscalarNegation), (SubSpace.isInvoluteSimple A n, .involute)]

/-- The conditions and implementations registered for `inverse`, in order, numga/multivector/extension/inverse.py:34-109.
`s.equals.X()` compares with, and `s.inside.X()` tests for inclusion in, the subspace `X` of the factory
(numga/subspace/namespaces.py:9-40), which may not exist (`none`). -/
def inverseOptions : List ((SubSpace → Option Bool) × InvRule) :=
  [(fun S => do some (S == (← A.empty)), .empty), (fun S => do some (S == (← A.scalar)), .scalar)] ++
  simplifyInverses A 0 ++
  [(fun S => do some ((← A.bivector).contains S), .bivector), (fun S => do some ((← A.trivector).contains S), .trivector)] ++
  simplifyInverses A 1 ++ simplifyInverses A 2

namespace MV
variable {R : Type} [Field R] [DecidableEq R]

/-- `self.copy(values=self.values / other.values)` for a scalar `other`, numga/multivector/multivector.py:311. -/
def divValues (x y : MV R) : Except Fail (MV R) :=
  match y.vals with
  | [c] => if c = 0 ∧ x.vals ≠ [] then .error .divZero else lift (x.copy (x.vals.map (· / c)))
  | _ => .error .raised

/-- `_divide`, numga/multivector/multivector.py:307-313; `inv` is `other.inverse()`. -/
def divideWith (inv : MV R → Except Fail (MV R)) (x y : MV R) : Except Fail (MV R) := do
  if y.sub = (← lift A.scalar) then divValues x y
  else do
    let i ← inv y
    lift (x.product A i)

/-- The implementations registered for `inverse`, numga/multivector/extension/inverse.py:35-44,54-78,92-98; `inv` is the
recursive call. -/
def runInverse (inv : MV R → Except Fail (MV R)) (x : MV R) : InvRule → Except Fail (MV R)
  | .empty => do
    let s := MV.default (← lift A.scalar)
    let z ← lift (s.mul A (.num 0))
    divideWith A inv s z
  | .scalar =>
    match x.vals with
    | [c] => if c = 0 then .error .divZero else lift (x.copy [1 / c])
    | _ => .error .raised
  | .squared => do divideWith A inv x (← lift (x.squared A))
  | .reverse => do divideWith A inv (← lift (x.reverse A)) (← lift (x.symmetricReverse A))
  | .conjugate => do divideWith A inv (← lift (x.conjugate A)) (← lift (x.symmetricConjugate A))
  | .scalarNegation => do divideWith A inv (← lift (x.scalarNegation A)) (← lift (x.symmetricScalarNegation A))
  | .pseudoscalarNegation => do
    divideWith A inv (← lift (x.pseudoscalarNegation A)) (← lift (x.symmetricPseudoscalarNegation A))
  | .involute => do divideWith A inv (← lift (x.involute A)) (← lift (x.symmetricInvolute A))
  | .bivector => do
    let i ← inv (← lift (x.symmetricReverse A))
    lift (x.bivectorProduct A (← lift i.neg))
  | .trivector => do
    let i ← inv (← lift (x.squared A))
    lift (x.trivectorProduct A i)

/-- `inverse`, numga/multivector/extension/inverse.py:34-109, with the dispatch of numga/dynamic_dispatch.py:18-38: the
first implementation whose condition holds.  The first argument bounds the depth of the recursion. -/
def inverse : Nat → MV R → Except Fail (MV R)
  | 0, _ => .error .fuel
  | fuel + 1, x =>
    match Dispatch.matchLoop x.sub (inverseOptions A) with
    | none => .error .noMatch
    | some rule => runInverse A (inverse fuel) x rule

/-- `__truediv__`, numga/multivector/multivector.py:342-344. -/
def truediv (fuel : Nat) (x : MV R) (y : Operand R) : Except Fail (MV R) := do
  divideWith A (inverse A fuel) x (← lift (upcast A y))
/-- `__rtruediv__`, numga/multivector/multivector.py:345-349. -/
def rtruediv (fuel : Nat) (x : MV R) (y : Operand R) : Except Fail (MV R) := do
  divideWith A (inverse A fuel) (← lift (upcast A y)) x

/-- `inverse_hitzer`, numga/multivector/multivector.py:315-318. -/
def inverseHitzer (fuel : Nat) (x : MV R) : Except Fail (MV R) := do
  let i ← lift (x.inverseFactor A)
  truediv A fuel i (.mv (← lift (x.scalarProduct A i)))

/-- The loop of `inverse_shirokov` for the remaining values of `k`, numga/multivector/multivector.py:334-337; the state is
`(u, u_minus_c)`. -/
def shirokovLoop (a : MV R) (n : Nat) : List Nat → MV R × Option (MV R) → Except Fail (MV R × Option (MV R))
  | [], st => .ok st
  | k :: ks, (u, _) => do
    let s ← lift (u.selectGrades A [0])
    let c ← lift (s.rmul A (.num ((n : R) / (k : R))))
    let d ← lift (u.sub' A (.mv c))
    let u' ← lift (a.product A d)
    shirokovLoop a n ks (u', some d)
/-- `inverse_shirokov`, numga/multivector/multivector.py:324-340; the inner `none` is the unbound `u_minus_c`. -/
def inverseShirokov (fuel : Nat) (a : MV R) : Except Fail (MV R) := do
  let n := 2 ^ ((A.n + 1) / 2)
  let (u, d) ← shirokovLoop A a n (List.range' 1 (n - 1)) (a, none)
  let d ← lift d
  truediv A fuel d (.mv (← lift (u.restrictGrades A [0])))

end MV
end Verif.Model
