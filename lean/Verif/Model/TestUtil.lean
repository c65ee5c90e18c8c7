import Verif.Model.MultivectorFactory
import Verif.Model.Roots
import Mathlib.Algebra.Order.Ring.Defs
/-!
# Random multivectors of the test helpers

Models numga/multivector/test/util.py for single multivectors (`shape=()`).  The numbers that `np.random.normal` draws are arguments.  Left out are `motor_properties`, which only
takes the lengths of what `motor_violations` returns, and `all_grade_combinations`.
-/
namespace Verif.Model.TestUtil
variable {R : Type} [Field R] [LinearOrder R] (A : Alg) (rt : Roots R) (fuel : Nat)

/-- `np.sign`, used in numga/multivector/test/util.py:43,57. -/
def sign (x : R) : R := if 0 < x then 1 else if x < 0 then -1 else 0

/-- `random_subspace`, numga/multivector/test/util.py:4-6. -/
def randomSubspace (S : SubSpace) (draw : List R) : Option (MV R) := MVFactory.multivector A (some draw) (some S)

/-- `random_normal_vector`, numga/multivector/test/util.py:9-10. -/
def randomVector (draw : List R) : Option (MV R) := do randomSubspace A (← A.vector) draw

/-- `random_nonnegative_normal_vector`, numga/multivector/test/util.py:13-20.  Where there are negative basis vectors the square of a vector has one coefficient,
which `np.where` broadcasts; other lengths are errors here.  Coefficients that are inverted must not be zero (numpy returns an infinity and a warning). -/
def randomNonnegative (draw : List R) : Except Fail (MV R) := do
  let r ← lift (randomVector A draw)
  if 0 < A.desc.pqr.2.1 then
    match (← lift (r.squared A)).vals with
    | [n] => if n < 0 then lift (r.copy (← r.vals.mapM fun v => if v = 0 then .error .divZero else .ok (1 / v))) else lift (r.copy r.vals)
    | _ => .error .raised
  else .ok r

/-- The loop of `random_positive_normal_vector`, numga/multivector/test/util.py:26-31; it never ends if there are no more draws. -/
def positiveLoop (margin : R) : MV R → List (List R) → Except Fail (MV R)
  | r, draws => do
    if (← lift (r.squared A)).vals.any (· < margin) then
      match draws with
      | [] => .error .fuel
      | d :: draws => positiveLoop margin (← lift (r.copy (← randomNonnegative A d).vals)) draws
    else .ok r

/-- `random_positive_normal_vector`, numga/multivector/test/util.py:23-32. -/
def randomPositive (margin : R) (draw : List R) (draws : List (List R)) : Except Fail (MV R) := do
  positiveLoop A margin (← randomNonnegative A draw) draws

/-- `random_reflection`, numga/multivector/test/util.py:35-37. -/
def randomReflection (draw : List R) : Except Fail (MV R) := do
  let r ← randomNonnegative A draw
  lift (r.mul A (.mv (← (← lift (r.squared A)).inverseSquareRoot A rt fuel)))

/-- `b * np.sign(b.values[..., 0])`, numga/multivector/test/util.py:43,57. -/
def signed (b : MV R) : Except Fail (MV R) :=
  match b.vals with
  | [] => .error .raised
  | v :: _ => lift (b.mul A (.num (sign v)))

/-- `random_bireflection`, numga/multivector/test/util.py:40-44. -/
def randomBireflection (draw : List R × List R) : Except Fail (MV R) := do
  let l ← randomReflection A rt fuel draw.1
  let r ← randomReflection A rt fuel draw.2
  signed A (← lift (l.mul A (.mv r)))

/-- `random_n_reflection`, numga/multivector/test/util.py:47-48; `draw k` are the numbers of the `k`-th reflection. -/
def randomNReflection (draw : Nat → List R) : Nat → Except Fail (MV R)
  | 0 => lift (MVFactory.kVector A 0 none)
  | n + 1 => do
    let m ← randomNReflection draw n
    lift (m.mul A (.mv (← randomReflection A rt fuel (draw n))))

/-- `random_2n_reflection`, numga/multivector/test/util.py:51-52. -/
def random2nReflection (draw : Nat → List R × List R) : Nat → Except Fail (MV R)
  | 0 => lift (MVFactory.kVector A 0 none)
  | n + 1 => do
    let m ← random2nReflection draw n
    lift (m.mul A (.mv (← randomBireflection A rt fuel (draw n))))

/-- `random_motor`, numga/multivector/test/util.py:55-58. -/
def randomMotor (draw : Nat → List R × List R) : Except Fail (MV R) := do signed A (← random2nReflection A rt fuel draw (A.n / 2))

/-- `random_non_motor`, numga/multivector/test/util.py:61-66. -/
def randomNonMotor (scale : R) (n : Nat) (draw : List R) : Option (MV R) := do
  let m ← (← (← randomSubspace A (← A.evenGrade) draw).mul A (.num scale)).add A (.num 1)
  (List.range n).foldlM (fun m _ => m.squared A) m

/-- `motor_violations`, numga/multivector/test/util.py:69-79, with the numbers of the vector `v`. -/
def motorViolations (m : MV R) (draw : List R) : Option (MV R × MV R) := do
  let v0 ← (← m.symmetricReverse A).sub' A (.num 1)
  let V ← A.vector
  let r ← m.fullSandwich A (← randomSubspace A V draw)
  return (v0, ← r.selectSubspace A (← r.sub.difference A V))

/-- `assert_close`, numga/multivector/test/util.py:103-104: `np.allclose(x, 0, atol)` holds if `|x| ≤ atol` for all numbers. -/
def assertClose (a : MV R) (b : MV.Operand R) (atol : R) : Option Bool := do
  return (← a.sub' A b).vals.all fun x => decide (x ≤ atol) && decide (-x ≤ atol)

/-- `check_inverse`, numga/multivector/test/util.py:98-100: whether both assertions hold. -/
def checkInverse (x i : MV R) (atol : R) : Option Bool := do
  let a ← assertClose A (← x.mul A (.mv i)) (.num 1) atol
  let b ← assertClose A (← i.mul A (.mv x)) (.num 1) atol
  return a && b

end Verif.Model.TestUtil
