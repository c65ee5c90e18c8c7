import Verif.Model.Physics
/-!
# Inertia of simplices

Models `simplex_inertia`, `simplex_inertia_weights` and `simplex_inertia_lumped` of numga/examples/test_simplex.py.  The two functions that
sample points of the simplex (a grid, and random points) are not modelled.  Arithmetic is exact.
-/
namespace Verif.Model.Simplex
variable {R : Type} [Field R] [DecidableEq R] (A : Alg) (rt : Roots R) (fuel : Nat)

/-- `simplex_inertia_weights`, numga/examples/test_simplex.py:16-25; `1 / 0` raises. -/
def weights (N : Nat) : Except Fail (List (List R)) := do
  if (N : R) = 0 then .error .divZero
  else
    let f ← MV.sqrtVal rt (1 / (1 + (N : R)))
    .ok ((List.range N).map fun k => (List.range N).map fun i => (1 / (N : R) + ((if k = i then 1 else 0) - 1 / (N : R)) * f) / N)

/-- One row of `(C * B).sum(axis=1)`, numga/examples/test_simplex.py:11: the corners `C` over the subspace `S` and one row of weights; numpy
raises when their numbers differ. -/
def combine (S : SubSpace) (C : List (MV R)) (w : List R) : Except Fail (MV R) := do
  if C.length = w.length then
    let terms ← (C.zip w).mapM fun p => lift (p.1.mul A (.num p.2))
    lift (MV.construct (sumRows S.blades.length (terms.map (·.vals))) S)
  else .error .raised

/-- One row of `L * s`, numga/examples/test_simplex.py:12-13: `L * (1 / L.norm().sqrt())`. -/
def rescale (L : MV R) : Except Fail (MV R) := do
  let s ← (← (← L.norm A rt fuel).sqrt rt).rtruediv A fuel (.num 1)
  lift (L.mul A (.mv s))

/-- `simplex_inertia`, numga/examples/test_simplex.py:9-13; the operators `(L * s).inertia_map()` are computed row by row, and their axes
are those of the first row (they are the same for all rows).  No rows: numpy sums an empty axis, here an error. -/
def inertia (S : SubSpace) (B : List (List R)) (C : List (MV R)) : Except Fail (Operator R) := do
  let L ← B.mapM fun w => combine A S C w
  let pts ← L.mapM (rescale A rt fuel)
  let biv ← lift A.bivector
  let ops ← pts.mapM fun p => lift (p.inertiaMap A biv)
  match pts with
  | [] => .error .raised
  | p :: _ =>
    let out := (← lift (Factory.inertia A (.sub p.sub) (.sub biv))).output
    .ok (sumOperators [biv, out] [biv.blades.length, out.blades.length] ops)

/-- `simplex_inertia_lumped`, numga/examples/test_simplex.py:28-31. -/
def lumped (S : SubSpace) (C : List (MV R)) : Except Fail (Operator R) := do inertia A rt fuel S (← weights rt C.length) C

end Verif.Model.Simplex
