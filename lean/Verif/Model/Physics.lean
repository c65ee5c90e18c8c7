import Verif.Model.Integrators
import Verif.Model.LogExp
import Verif.Model.LeastSquares
/-!
# Rigid bodies

Models numga/examples/physics/base.py and numga/examples/physics/core.py for one body (no leading axes) and for one constraint between two
bodies; sets of bodies and of constraints are in Model/System.lean.  Arithmetic is exact.
-/
namespace Verif.Model
variable {R : Type} [Field R] [DecidableEq R]

/-- `np.linalg.inv` of a square matrix, numga/backend/numpy/operator.py:86: adjugate over determinant (numpy factorises the matrix); a
matrix that is not square or singular raises `LinAlgError`. -/
noncomputable def numpyInv (k : Tensor R) : Option (Tensor R) :=
  match k.shape with
  | [n, m] =>
    if n = m then
      let M : Matrix (Fin n) (Fin n) R := Matrix.of fun i j => k.get [i, j]
      if M.det = 0 then none
      else some ⟨[n, n], fun idx => if h : idx.getD 0 0 < n ∧ idx.getD 1 0 < n then M.adjugate ⟨_, h.1⟩ ⟨_, h.2⟩ / M.det else 0⟩
    else none
  | _ => none

/-- `NumpyOperator.inverse`, numga/backend/numpy/operator.py:78-90. -/
noncomputable def Operator.inverse (op : Operator R) : Option (Operator R) :=
  match op.axes with
  | [S, T] => (numpyInv op.kernel).map fun k => ⟨k, [T, S]⟩
  | _ => none

/-- `op.sum(axis=-3)` of a unary operator whose kernel has one leading axis, numga/backend/numpy/operator.py:71-77, as called in
numga/examples/physics/base.py:113; the operator is given by its slices along that axis, with the common axes and shape of the kernel. -/
def sumOperators {R : Type} [CommRing R] (axes : List SubSpace) (shape : List Nat) (ops : List (Operator R)) : Operator R :=
  ⟨⟨shape, fun idx => (ops.map fun o => o.kernel.get idx).sum⟩, axes⟩

/-- `points.sum(axis=-2)`, numga/backend/numpy/multivector.py:52-53, of the rows of an array with one leading axis. -/
def sumRows {R : Type} [CommRing R] (n : Nat) (rows : List (List R)) : List R := (List.range n).map fun i => (rows.map fun r => r.getD i 0).sum

/-- The state of a rigid body, numga/examples/physics/base.py:24-54. -/
structure Body (R : Type) where
  motor : MV R
  rate : MV R
  firstMoment : MV R
  inertia : Operator R
  inertiaInv : Operator R
  damping : MV R
  gravity : MV R

namespace Body
variable (A : Alg)

/-- The assertions of `BodyBase.__init__`, numga/examples/physics/base.py:41-47. -/
def asserts (b : Body R) : Option Bool := do
  some (b.motor.sub == (← A.evenGrade) && b.rate.sub == (← A.bivector) && (← A.antivector).contains b.gravity.sub &&
    b.inertia.output == (← A.antibivector) && b.inertiaInv.output == (← A.bivector) && b.damping.sub == (← A.scalar))

/-- `BodyBase.__init__`, numga/examples/physics/base.py:41-54. -/
def init (b : Body R) : Except Fail (Body R) := if b.asserts A = some true then .ok b else .error .raised

/-- `copy`, numga/examples/physics/base.py:81-90; `none` for an argument that is not given. -/
def copy (b : Body R) (motor rate gravity damping : Option (MV R)) : Except Fail (Body R) :=
  init A { b with motor := motor.getD b.motor, rate := rate.getD b.rate, gravity := gravity.getD b.gravity, damping := damping.getD b.damping }

/-- `from_point_cloud`, numga/examples/physics/base.py:93-124; the points are the rows of an array over the subspace `S`.  The operator
`points.inertia_map()` is computed row by row (the einsum of `partial` acts on the leading axis pointwise), and its axes are those of the
abstract operator. -/
noncomputable def fromPointCloud (S : SubSpace) (rows : List (List R)) : Except Fail (Body R) := do
  let points ← rows.mapM fun r => lift (MV.construct r S)
  if ← lift (do some ((← A.antivector).contains S)) then
    let firstMoment ← lift (MV.construct (sumRows S.blades.length rows) S)
    let biv ← lift A.bivector
    let ops ← points.mapM fun p => lift (p.inertiaMap A biv)
    let out := (← lift (Factory.inertia A (.sub S) (.sub biv))).output
    let inertia := sumOperators [biv, out] [biv.blades.length, out.blades.length] ops
    let inertiaInv ← lift inertia.inverse
    init A
      { motor := ← lift ((MV.default (← lift A.evenGrade)).mul A (.num 1))
        rate := ← lift ((MV.default biv).mul A (.num 1))
        firstMoment := firstMoment
        inertia := inertia
        inertiaInv := inertiaInv
        damping := ← lift ((← lift ((MV.default (← lift A.scalar)).mul A (.num 1))).mul A (.num 0))
        gravity := ← lift ((MV.default (← lift A.antivector)).mul A (.num 1)) }
  else .error .raised

/-- `kinetic_energy`, numga/examples/physics/base.py:126-130. -/
def kineticEnergy (b : Body R) : Option (MV R) := do (← einsumCallMV b.inertia [b.rate]).regressive A b.rate

/-- `forques`, numga/examples/physics/core.py:42-49. -/
def forques (b : Body R) : Option (MV R) := do
  let damping ← (← (← b.rate.mul A (.mv b.damping)).dual A).neg
  let gravity ← b.firstMoment.regressive A (← b.motor.reverseSandwich A b.gravity)
  damping.add A (.mv gravity)

/-- `rate_derivative`, numga/examples/physics/core.py:51-57. -/
def rateDerivative (b : Body R) : Option (MV R) := do
  let gyro ← (← einsumCallMV b.inertia [b.rate]).commutator A b.rate
  einsumCallMV b.inertiaInv [← (← b.forques A).sub' A (.mv gyro)]

end Body

section
variable (A : Alg) (rt : Roots R) (fuel : Nat)

/-- `motor_add_step`, numga/examples/physics/core.py:33-35. -/
def motorAddStep (motor step : MV R) : Except Fail (MV R) := do
  lift (motor.mul A (.mv (← (← lift (step.mul A (.num (-1 / 2)))).expLinearNormalized A rt fuel)))
/-- `motor_relative_step`, numga/examples/physics/core.py:36-38. -/
def motorRelativeStep (old new : MV R) : Except Fail (MV R) := do
  lift ((← (← lift (new.reverseProduct A old)).motorLogLinearNormalized A fuel).mul A (.num (-2)))

namespace Body

/-- `pre_integrate`, numga/examples/physics/core.py:68-72. -/
def preIntegrate (b : Body R) (dt : R) : Except Fail (Body R) := do
  let rate ← Integrators.RK4 A (fun r => do lift ((← b.copy A none (some r) none none).rateDerivative A)) b.rate dt
  let motor ← motorAddStep A rt fuel b.motor (← lift (rate.mul A (.num dt)))
  b.copy A (some motor) (some rate) none none
/-- `post_integrate`, numga/examples/physics/core.py:73-79. -/
def postIntegrate (b old : Body R) (dt : R) : Except Fail (Body R) := do
  let motor ← b.motor.normalized A rt fuel
  let step ← motorRelativeStep A fuel (← lift (motor.reverse A)) (← lift (old.motor.reverse A))
  b.copy A (some motor) (some (← step.truediv A fuel (.num dt))) none none
/-- `integrate` without constraints, numga/examples/physics/core.py:80-88. -/
def integrate (b : Body R) (dt : R) : Except Fail (Body R) := do
  (← b.preIntegrate A rt fuel dt).postIntegrate A rt fuel b dt

end Body

/-- One constraint between two bodies, numga/examples/physics/base.py:133-150: the anchors in the frames of the two bodies, and the
compliance.  `Body.__init__`-like assertions are in `Constraint.init`. -/
structure Constraint (R : Type) where
  anchor0 : MV R
  anchor1 : MV R
  compliance : MV R

namespace Constraint

/-- The assertions of `ConstraintBase.__init__`, numga/examples/physics/base.py:139-142. -/
def init (c : Constraint R) : Except Fail (Constraint R) :=
  if (do some (c.anchor0.sub == (← A.antivector) && c.anchor1.sub == (← A.antivector) && c.compliance.sub == (← A.scalar))) = some true
  then .ok c else .error .raised

/-- `distribute_forque`, numga/examples/physics/core.py:148-167, for one constraint: directions, magnitude, inverse inertia maps of the
two bodies and compliance; the two bivector steps.  The connectivity is `[+1/2, -1/2]`, numga/examples/physics/base.py:149. -/
def distributeForque (d0 d1 magnitude : MV R) (inv0 inv1 : Operator R) (compliance : MV R) : Except Fail (MV R × MV R) := do
  let s0 ← lift (einsumCallMV inv0 [d0])
  let s1 ← lift (einsumCallMV inv1 [d1])
  let c0 ← lift (s0.regressive A d0)
  let c1 ← lift (s1.regressive A d1)
  let total ← lift (compliance.add A (.mv (← lift (c0.copy (List.zipWith (· + ·) c0.vals c1.vals)))))
  let multiplier ← magnitude.truediv A fuel (.mv total)
  let scalar ← lift A.scalar
  let p ← lift (MV.construct [1 / 2] scalar)
  let m ← lift (MV.construct [-1 / 2] scalar)
  let r0 ← lift ((← lift (s0.mul A (.mv p))).mul A (.mv multiplier))
  let r1 ← lift ((← lift (s1.mul A (.mv m))).mul A (.mv multiplier))
  .ok (r0, r1)

/-- `apply_indexed`, numga/examples/physics/core.py:104-120, for one constraint; `tiny` is the number `1e-26`. -/
def applyIndexed (tiny : R) (c : Constraint R) (m0 m1 : MV R) (inv0 inv1 : Operator R) (dt : R) : Except Fail (MV R × MV R) := do
  let forque ← lift ((← lift (m0.sandwich A c.anchor0)).regressive A (← lift (m1.sandwich A c.anchor1)))
  let magnitude ← forque.norm A rt fuel
  let direction ← forque.truediv A fuel (.mv (← lift (magnitude.add A (.num tiny))))
  let steps ← distributeForque A fuel (← lift (m0.reverseSandwich A direction)) (← lift (m1.reverseSandwich A direction)) magnitude inv0 inv1
    (← c.compliance.truediv A fuel (.num (dt ^ 2)))
  .ok (← motorAddStep A rt fuel m0 steps.1, ← motorAddStep A rt fuel m1 steps.2)

/-- `v_apply_indexed`, numga/examples/physics/core.py:129-146, for one constraint; `tiny` is the number `1e-26`. -/
def vApplyIndexed (tiny : R) (c : Constraint R) (m0 m1 rate0 rate1 : MV R) (inv0 inv1 : Operator R) : Except Fail (MV R × MV R) := do
  let biv ← lift A.bivector
  let v0 ← lift (do m0.sandwich A (← einsumCallMV (← c.anchor0.inertiaMap A biv) [rate0]))
  let v1 ← lift (do m1.sandwich A (← einsumCallMV (← c.anchor1.inertiaMap A biv) [rate1]))
  let scalar ← lift A.scalar
  let w0 ← lift ((← lift (MV.construct [1 / 2] scalar)).mul A (.mv v0))
  let w1 ← lift ((← lift (MV.construct [-1 / 2] scalar)).mul A (.mv v1))
  let forque ← lift (do (← w0.copy (List.zipWith (· + ·) w0.vals w1.vals)).neg)
  let magnitude ← forque.norm A rt fuel
  let direction ← forque.truediv A fuel (.mv (← lift (magnitude.add A (.num tiny))))
  let steps ← distributeForque A fuel (← lift (m0.reverseSandwich A direction)) (← lift (m1.reverseSandwich A direction)) magnitude inv0 inv1
    (← lift (c.compliance.mul A (.num 0)))
  .ok (← lift (rate0.add A (.mv steps.1)), ← lift (rate1.add A (.mv steps.2)))

end Constraint
end
end Verif.Model
