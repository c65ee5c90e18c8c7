import Verif.Model.LogExp
import Verif.Model.LeastSquares
import Verif.Model.Integrators
/-!
# Lie group integrators

Models numga/examples/physics/lie_integrators.py for one body.  Arithmetic is exact.  A function that is passed as an argument may raise.  The
integrators take the solver of the implicit equation as an argument, in the code it is `newton_solver` with ten steps; the Jacobian that jax
derives from the code of a function is an argument of `newtonSolver`.  Not modelled: `new3`, which the code marks as broken.
-/
namespace Verif.Model.Lie
variable {R : Type} [Field R] [DecidableEq R]

/-- One step of `newton_solver`, numga/examples/physics/lie_integrators.py:18; a singular matrix is an error (jax puts nan). -/
noncomputable def newtonStep (fn : List R → Except Fail (List R)) (jac : List R → Nat → Nat → R) (x : List R) : Except Fail (List R) := do
  let f ← fn x
  match linalgSolve x.length (jac x) (fun i => f.getD i 0) with
  | some d => .ok (List.zipWith (· - ·) x d)
  | none => .error .divZero

/-- `newton_solver`, numga/examples/physics/lie_integrators.py:15-19; `n` is 10 by default. -/
noncomputable def newtonSolver (fn : List R → Except Fail (List R)) (jac : List R → Nat → Nat → R) : Nat → List R → Except Fail (List R)
  | 0, x => .ok x
  | n + 1, x => do newtonSolver fn jac n (← newtonStep fn jac x)

/-- `newton_solver_wrap`, numga/examples/physics/lie_integrators.py:22-26. -/
def solverWrap (solver : (List R → Except Fail (List R)) → List R → Except Fail (List R)) (func : MV R → Except Fail (MV R)) (init : MV R) : Except Fail (MV R) := do
  lift (init.copy (← solver (fun x => do .ok (← func (← lift (init.copy x))).vals) init.vals))

section
variable (A : Alg) (rt : Roots R) (fuel : Nat)

/-- `exp2`, numga/examples/physics/lie_integrators.py:30-31. -/
def exp2 (b : MV R) : Except Fail (MV R) := b.expCayley A fuel
/-- `log2`, numga/examples/physics/lie_integrators.py:32-33. -/
def log2 (r : MV R) : Except Fail (MV R) := r.motorLogCayley A rt fuel
/-- `exp4`, numga/examples/physics/lie_integrators.py:35-36. -/
def exp4 (b : MV R) : Except Fail (MV R) := do lift ((← exp2 A fuel (← b.truediv A fuel (.num 2))).squared A)
/-- `log4`, numga/examples/physics/lie_integrators.py:37-38. -/
def log4 (r : MV R) : Except Fail (MV R) := do lift ((← log2 A rt fuel (← r.motorSquareRoot A rt fuel)).mul A (.num 2))

variable (solver : (List R → Except Fail (List R)) → List R → Except Fail (List R)) (inertia inertiaInv : Operator R)
  (ext : MV R → MV R → Except Fail (MV R))

/-- `forque`, numga/examples/physics/lie_integrators.py:45-46. -/
def forque (motor rate : MV R) : Except Fail (MV R) := do
  lift ((← ext motor rate).sub' A (.mv (← lift ((← lift (einsumCallMV inertia [rate])).commutator A rate))))

/-- `energy`, numga/examples/physics/lie_integrators.py:43-44. -/
def energy (dt : R) (rate : MV R) : Except Fail (MV R) := do
  lift ((← lift ((← lift ((← lift (einsumCallMV inertia [rate])).wedge A rate)).mul A (.mv rate))).mul A (.num (dt / 2)))

/-- `implicit` of `variational_lie_verlet`, numga/examples/physics/lie_integrators.py:48-49. -/
def verletEquation (motor rate : MV R) (dt : R) (rh : MV R) : Except Fail (MV R) := do
  let f ← lift ((← forque A inertia ext motor rh).sub' A (.mv (← energy A inertia dt rh)))
  lift ((← lift ((← lift rh.neg).add A (.mv rate))).add A (.mv (← lift ((← lift (einsumCallMV inertiaInv [f])).mul A (.num (dt / 2))))))

/-- `variational_lie_verlet`, numga/examples/physics/lie_integrators.py:41-57. -/
def variationalLieVerlet (motor rate : MV R) (dt : R) : Except Fail (MV R × MV R) := do
  let rateHalf ← solverWrap solver (verletEquation A inertia inertiaInv ext motor rate dt) rate
  let motorNew ← lift (motor.mul A (.mv (← exp2 A fuel (← (← lift (rateHalf.mul A (.num dt))).truediv A fuel (.num (-4))))))
  let f ← lift ((← forque A inertia ext motorNew rateHalf).add A (.mv (← energy A inertia dt rateHalf)))
  let rateNew ← lift (rateHalf.add A (.mv (← lift ((← lift (einsumCallMV inertiaInv [f])).mul A (.num (dt / 2))))))
  .ok (motorNew, rateNew)

/-- `impulse`, numga/examples/physics/lie_integrators.py:62-63 and 79-80. -/
def impulse (dt : R) (motor rate : MV R) : Except Fail (MV R) := do lift ((← forque A inertia ext motor rate).mul A (.num (dt / 2)))

/-- `implicit`, numga/examples/physics/lie_integrators.py:70-71 and 83-84. -/
def newmarkEquation (motor rate : MV R) (dt : R) (rn : MV R) : Except Fail (MV R) := do
  lift ((← lift ((← lift rn.neg).add A (.mv rate))).add A (.mv (← lift (einsumCallMV inertiaInv [← impulse A inertia ext dt motor rn]))))

/-- `exp2(rate * dt / 2) * motor`, numga/examples/physics/lie_integrators.py:67, 87, 123 and 132. -/
def motorStep (motor rate : MV R) (dt : R) : Except Fail (MV R) := do
  lift ((← exp2 A fuel (← (← lift (rate.mul A (.num dt))).truediv A fuel (.num 2))).mul A (.mv motor))

/-- `explicit_lie_newmark`, numga/examples/physics/lie_integrators.py:60-74. -/
def explicitLieNewmark (motor rate : MV R) (dt : R) : Except Fail (MV R × MV R) := do
  let half ← lift (einsumCallMV inertiaInv [← impulse A inertia ext dt motor rate])
  let rateHalf ← lift (rate.add A (.mv half))
  let motorNew ← motorStep A fuel motor rateHalf dt
  let rateNew ← solverWrap solver (newmarkEquation A inertia inertiaInv ext motorNew rateHalf dt) (← lift (rateHalf.add A (.mv half)))
  .ok (motorNew, rateNew)

/-- `explicit_lie_newmark_rev`, numga/examples/physics/lie_integrators.py:77-97. -/
def explicitLieNewmarkRev (motor rate : MV R) (dt : R) : Except Fail (MV R × MV R) := do
  let half ← lift (einsumCallMV inertiaInv [← impulse A inertia ext dt motor rate])
  let rateHalf ← solverWrap solver (newmarkEquation A inertia inertiaInv ext motor rate dt) (← lift (rate.add A (.mv half)))
  let motorNew ← motorStep A fuel motor rateHalf dt
  let half ← lift (einsumCallMV inertiaInv [← impulse A inertia ext dt motorNew rateHalf])
  .ok (motorNew, ← lift (rateHalf.add A (.mv half)))

/-- `dr`, numga/examples/physics/lie_integrators.py:120 and 129. -/
def rateDerivative (motor rate : MV R) : Except Fail (MV R) := do lift (einsumCallMV inertiaInv [← forque A inertia ext motor rate])

/-- `explicit_rk1`, numga/examples/physics/lie_integrators.py:118-124. -/
def explicitRk1 (motor rate : MV R) (dt : R) : Except Fail (MV R × MV R) := do
  let rate ← Integrators.RK1 A (rateDerivative A inertia inertiaInv ext motor) rate dt
  .ok (← motorStep A fuel motor rate dt, rate)

/-- `explicit_rk4`, numga/examples/physics/lie_integrators.py:127-134. -/
def explicitRk4 (motor rate : MV R) (dt : R) : Except Fail (MV R × MV R) := do
  let rate ← Integrators.RK4 A (rateDerivative A inertia inertiaInv ext motor) rate dt
  .ok (← motorStep A fuel motor rate dt, rate)

end
end Verif.Model.Lie
