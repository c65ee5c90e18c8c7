import Verif.Model.Inverse
/-!
# Runge-Kutta steps

Models numga/examples/integrators.py for a state that is one multivector and a right hand side that may raise.  The literals `0.5`, `h / 3`
and so on are exact numbers of the field: rounding is not modelled.
-/
namespace Verif.Model.Integrators
variable {R : Type} [Field R] (A : Alg)

/-- A float times a multivector, the `__rmul__` used throughout numga/examples/integrators.py:9-28. -/
def scale (c : R) (x : MV R) : Except Fail (MV R) := lift (x.rmul A (.num c))
/-- `+` of two multivectors as used throughout numga/examples/integrators.py:3-28. -/
def plus (x y : MV R) : Except Fail (MV R) := lift (x.add A (.mv y))
/-- `-` of two multivectors as used in numga/examples/integrators.py:20-25. -/
def minus (x y : MV R) : Except Fail (MV R) := lift (x.sub' A (.mv y))
/-- A sum `first + c2 * k2 - c3 * k3 ...` of integer multiples evaluated from the left, as in the lines 18-27 of
numga/examples/integrators.py; a negative coefficient stands for a subtraction of the positive multiple. -/
def combination (first : MV R) : List (Int × MV R) → Except Fail (MV R)
  | [] => .ok first
  | (c, k) :: rest => do
    if c < 0 then combination (← minus A first (← scale A ((-c : Int) : R) k)) rest
    else combination (← plus A first (← scale A (c : R) k)) rest

variable (f : MV R → Except Fail (MV R))

/-- `RK1`, numga/examples/integrators.py:3-4. -/
def RK1 (y : MV R) (h : R) : Except Fail (MV R) := do plus A y (← lift ((← f y).mul A (.num h)))

/-- `RK4`, numga/examples/integrators.py:7-12. -/
def RK4 (y : MV R) (h : R) : Except Fail (MV R) := do
  let k1 ← f y
  let k2 ← f (← plus A y (← scale A (1 / 2 * h) k1))
  let k3 ← f (← plus A y (← scale A (1 / 2 * h) k2))
  let k4 ← f (← plus A y (← scale A h k3))
  plus A y (← scale A (h / 3) (← plus A (← plus A k2 k3) (← lift ((← plus A k1 k4).mul A (.num (1 / 2))))))

/-- `RK8`, numga/examples/integrators.py:15-28. -/
def RK8 (y : MV R) (h : R) : Except Fail (MV R) := do
  let k1 ← f y
  let k2 ← f (← plus A y (← scale A (h * 4 / 27) k1))
  let k3 ← f (← plus A y (← scale A (h / 18) (← combination A k1 [(3, k2)])))
  let k4 ← f (← plus A y (← scale A (h / 12) (← combination A k1 [(3, k3)])))
  let k5 ← f (← plus A y (← scale A (h / 8) (← combination A k1 [(3, k4)])))
  let k6 ← f (← plus A y (← scale A (h / 54) (← combination A (← scale A (13) k1) [(-27, k3), (42, k4), (8, k5)])))
  let k7 ← f (← plus A y (← scale A (h / 4320) (← combination A (← scale A (389) k1) [(-54, k3), (966, k4), (-824, k5), (243, k6)])))
  let k8 ← f (← plus A y (← scale A (h / 20) (← combination A (← scale A (-234) k1) [(81, k3), (-1164, k4), (656, k5), (-122, k6), (800, k7)])))
  let k9 ← f (← plus A y (← scale A (h / 288)
    (← combination A (← scale A (-127) k1) [(18, k3), (-678, k4), (456, k5), (-9, k6), (576, k7), (4, k8)])))
  let k10 ← f (← plus A y (← scale A (h / 820)
    (← combination A (← scale A (1481) k1) [(-81, k3), (7104, k4), (-3376, k5), (72, k6), (-5040, k7), (-60, k8), (720, k9)])))
  plus A y (← scale A (h / 840)
    (← combination A (← scale A (41) k1) [(27, k4), (272, k5), (27, k6), (216, k7), (216, k9), (41, k10)]))

end Verif.Model.Integrators
