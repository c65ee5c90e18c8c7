import Verif.Model.Names
import Verif.Model.LogExp
/-!
# Model of `numga/multivector/extension/optimized.py`

The functions of that file work on the entries of the value array of one multivector; the model has one multivector, without
further array axes.  `np.sqrt` and `** (-0.5)` are those of `Roots`; `np.cos` and `np.sin` are parameters.
-/
namespace Verif.Model
variable (A : Alg)

/-- The conditions of the four registrations, numga/multivector/extension/optimized.py:29-31, 60-62, 74-76, 96-98: the layout and
the description of the algebra are compared as strings. -/
def optimizedFor (layout : String) (S : SubSpace) : Bool :=
  S.namedStr A == layout.toList && A.desc.descriptionStr == some "x+y+z+w0".toList

namespace MV
variable {R : Type} [Field R] [DecidableEq R] (rt : Roots R)

/-- `normalize_3dpga_motor_numpy`, numga/multivector/extension/optimized.py:34-55.  The names are views on the copied array, so
after `m.values *= s` they stand for the scaled entries. -/
def normalizeMotor (m : MV R) : Except Fail (MV R) :=
  match m.vals with
  | [e, xy, xz, yz, xw, yw, zw, xyzw] => do
    let s ← invSqrtVal rt (e * e + xy * xy + xz * xz + yz * yz)
    let d := (e * xyzw - xy * zw + xz * yw - yz * xw) * s * s
    let e := e * s
    let xy := xy * s
    let xz := xz * s
    let yz := yz * s
    let xw := xw * s + yz * d
    let yw := yw * s - xz * d
    let zw := zw * s + xy * d
    let xyzw := xyzw * s - e * d
    lift (m.copy [e, xy, xz, yz, xw, yw, zw, xyzw])
  | _ => .error .raised

/-- `normalized` after importing the module, numga/multivector/extension/optimized.py:24-33 (`position=0`: tried first). -/
def normalizedOptimized (fuel : Nat) (x : MV R) : Except Fail (MV R) :=
  if optimizedFor A "1,xy,xz,yz,xw,yw,zw,xyzw" x.sub then x.normalizeMotor rt else x.normalized A rt fuel

/-- `exponentiate_degenerate_bivector_numpy`, numga/multivector/extension/optimized.py:65-71. -/
def expDegenerate (b : MV R) : Except Fail (MV R) := do
  lift (construct (1 :: b.vals) (← lift A.translator))

variable [LinearOrder R] (cos sin : R → R)

/-- `np.where(a > 1e-20, np.sin(a) / a, 1)`, numga/multivector/extension/optimized.py:86,115. -/
def sinc (a : R) : R := if 1 / 10 ^ 20 < a then sin a / a else 1

/-- `exponentiate_nondegenerate_bivector_numpy`, numga/multivector/extension/optimized.py:79-93. -/
def expNondegenerate (b : MV R) : Except Fail (MV R) :=
  match b.vals with
  | [xy, xz, yz] => do
    let l := xy * xy + xz * xz + yz * yz
    let a ← sqrtVal rt l
    let c := cos a
    let s := sinc sin a
    lift (construct [c, s * xy, s * xz, s * yz] (← lift A.rotor))
  | _ => .error .raised

/-- `exponentiate_bivector_numpy`, numga/multivector/extension/optimized.py:101-127; `motor` is `even_grade`,
numga/subspace/factory.py:144.  A division by `l = 0` gives `nan` or `inf`. -/
def expBivector (b : MV R) : Except Fail (MV R) :=
  match b.vals with
  | [xy, xz, yz, xw, yw, zw] => do
    let l := xy * xy + xz * xz + yz * yz
    let a ← sqrtVal rt l
    let m := xy * zw - xz * yw + yz * xw
    let c := cos a
    let s := sinc sin a
    if l = 0 then .error .divZero
    else
      let t := m * (c - s) / l
      lift (construct [c, s * xy, s * xz, s * yz, s * xw + t * yz, s * yw - t * xz, s * zw + t * xy, m * s] (← lift A.evenGrade))
  | _ => .error .raised

/-- `exp` after importing the module, numga/multivector/extension/optimized.py:59-100 (each is tried before the earlier ones, and
before those of `logexp.py`). -/
def expOptimized (fuel : Nat) (e : R → R) (n : Nat) (b : MV R) : Except Fail (MV R) :=
  if optimizedFor A "xy,xz,yz,xw,yw,zw" b.sub then b.expBivector A rt cos sin
  else if optimizedFor A "xy,xz,yz" b.sub then b.expNondegenerate A rt cos sin
  else if optimizedFor A "xw,yw,zw" b.sub then b.expDegenerate A
  else b.exp A fuel e n

end MV
end Verif.Model
