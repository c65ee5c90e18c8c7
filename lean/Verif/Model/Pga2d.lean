import Verif.Model.LogExp
import Verif.Model.Backend
import Verif.Model.MultivectorFactory
/-!
# Motions of the plane

Models numga/examples/pga2d.py for single multivectors and single points.  Arithmetic is exact, `sin` and `cos` are arguments.
-/
namespace Verif.Model.Pga2d
variable {R : Type} [Field R] [DecidableEq R]

/-- `pga`, numga/examples/pga2d.py:12. -/
def pga : Alg := ⟨⟨["w".toList, "x".toList, "y".toList], [0, 1, 1]⟩, 1, 1⟩

/-- `x`, `y`, `w`, `xy`, `wx`, `wy` and `origin` (`yx`), numga/examples/pga2d.py:13-21: the blade of the given name. -/
def named (name : String) : Except Fail (MV R) := lift (MVFactory.getattr pga name.toList)

/-- `plane`, numga/examples/pga2d.py:26-27. -/
def plane (nx ny d : R) : Except Fail (MV R) := do
  let n ← lift ((← lift ((← named "x").mul pga (.num nx))).add pga (.mv (← lift ((← named "y").mul pga (.num ny)))))
  lift (n.sub' pga (.mv (← lift ((← named "w").mul pga (.num d)))))

/-- `translator`, numga/examples/pga2d.py:39-40. -/
def translator (fuel : Nat) (tx ty : R) : Except Fail (MV R) := do
  let a ← (← lift ((← named "wx").mul pga (.num tx))).truediv pga fuel (.num (-2))
  let b ← (← lift ((← named "wy").mul pga (.num ty))).truediv pga fuel (.num (-2))
  lift ((← lift (a.add pga (.num 1))).add pga (.mv b))

/-- `point`, numga/examples/pga2d.py:29-30; the line after the `return` is never reached. -/
def point (fuel : Nat) (px py : R) : Except Fail (MV R) := do lift ((← translator fuel px py).sandwich pga (← named "yx"))

/-- `rotor`, numga/examples/pga2d.py:34-36. -/
def rotor (sin cos : R → R) (angle : R) : Except Fail (MV R) := do
  lift ((← lift ((← named "xy").mul pga (.num (sin (angle / -2))))).add pga (.num (cos (angle / -2))))

section
variable (A : Alg) (rt : Roots R) (fuel : Nat) (sin cos : R → R) (small : R → Prop) [DecidablePred small]

/-- `exponentiate_bivector_numpy`, numga/examples/pga2d.py:49-54; `small` stands for `av > 1e-20` not being true.  The norm without values
(`values[..., 0]` of nothing) raises. -/
def expPlane (b : MV R) : Except Fail (MV R) := do
  match (← b.norm A rt fuel).vals with
  | [] => .error .raised
  | av :: _ =>
    let sv := if small av then 1 else sin av / av
    lift ((← lift (b.mul A (.num sv))).add A (.num (cos av)))

/-- `exp` once this module is imported, numga/examples/pga2d.py:44-48: the options of numga/multivector/extension/logexp.py:28-44 with the new
one in second place; `none` is the new one. -/
def expOptions : List ((SubSpace → Option Bool) × Option ExpRule) :=
  match (Model.expOptions A).map fun o => (o.1, some o.2) with
  | o :: os => o :: (fun S => do if ← insideBivector A S then some (decide (A.n ≤ 3)) else some false, none) :: os
  | [] => []

/-- `exp` once this module is imported, numga/multivector/extension/logexp.py:28-44 and numga/examples/pga2d.py:44-54; the other options run as
before. -/
def exp (e : R → R) (n : Nat) (b : MV R) : Except Fail (MV R) :=
  match Dispatch.matchLoop b.sub (expOptions A) with
  | none => .error .noMatch
  | some none => expPlane A rt fuel sin cos small b
  | some (some _) => b.exp A fuel e n

end

/-- `as_matrix`, numga/examples/pga2d.py:61-62: `sandwich` with a subspace binds the motor. -/
def asMatrix (m : MV R) : Except Fail (Tensor R) := do
  let m ← lift (do m.selectSubspace pga (← pga.evenGrade))
  let v ← lift pga.antivector
  match ← lift (do ((← Factory.sandwich pga (.sub m.sub) v).cast R).callMixed [.inr m, .inl v, .inr m]) with
  | .inl op => .ok op.kernel
  | .inr _ => .error .raised

/-- `signs`, numga/examples/pga2d.py:59. -/
def sign (i j : Nat) : R := 1 - ((3 * i + j) % 2 : Nat) * 2

/-- `transform_points`, numga/examples/pga2d.py:63-66, for one point. -/
def transformPoint (m : MV R) (px py : R) : Except Fail (R × R) := do
  let k ← asMatrix m
  let m (i j : Nat) : R := k.get [2 - i, 2 - j] * sign (2 - i) (2 - j)
  .ok (px * m 1 1 + py * m 2 1 + m 0 1, px * m 1 2 + py * m 2 2 + m 0 2)

end Verif.Model.Pga2d
