import Verif.Model.Physics
import Verif.Model.MultivectorFactory
/-!
# The tennis racket example

Models numga/examples/tennis_racket_theorem.py.  A batch of bodies is the list of its entries; arithmetic is exact.  The random numbers are an
argument; plotting is not modelled.
-/
namespace Verif.Model.Racket
variable {R : Type} [Field R] [DecidableEq R] (A : Alg)

/-- `make_n_cube`, numga/examples/tennis_racket_theorem.py:17-19. -/
def makeNCube (n : Nat) : List (List Int) :=
  (List.range (2 ^ n)).map fun p => (List.range n).map fun i => 2 * (if 0 < p &&& 1 <<< i then 1 else 0) - 1

/-- `make_n_rect`, numga/examples/tennis_racket_theorem.py:20-21. -/
def makeNRect (n : Nat) : List (List Int) :=
  (makeNCube n).map fun r => List.zipWith (· * ·) r ((List.range n).map fun i : Nat => (i : Int) + 1)

/-- `make_point_cloud`, numga/examples/tennis_racket_theorem.py:22-24. -/
def makePointCloud : Option (List (MV R)) :=
  (makeNRect A.desc.nDimensions).mapM fun r => do (← MVFactory.kVector A 1 (some (r.map fun i : Int => (i : R)))).dual A

/-- The bodies, numga/examples/tennis_racket_theorem.py:26-35: `repeat` makes `nb` equal clouds.  The rate is assigned to the attribute, without the
assertions of `__init__`. -/
noncomputable def bodies (jitter : Nat → Nat → R) : Except Fail (List (Body R)) := do
  let points : List (MV R) ← lift (makePointCloud A)
  let nb := (← lift A.bivector).blades.length
  let b : Body R ← match points with
    | [] => .error .raised
    | p :: _ => Body.fromPointCloud A p.sub (points.map (·.vals))
  (List.range nb).mapM fun i => do
    let v ← lift (MVFactory.kVector A 2 (some ((List.range nb).map fun j => (if i = j then 1 else 0) + jitter i j)))
    .ok { b with rate := ← lift (b.rate.add A (.mv v)) }

/-- The loop, numga/examples/tennis_racket_theorem.py:38-48, with the branch that is switched off left out: the motors after every step. -/
def simulate (rt : Roots R) (fuel : Nat) (dt : R) : Nat → Body R → Except Fail (List (MV R))
  | 0, _ => .ok []
  | n + 1, b => do
    let b ← b.integrate A rt fuel dt
    .ok (b.motor :: (← simulate rt fuel dt n b))

end Verif.Model.Racket
