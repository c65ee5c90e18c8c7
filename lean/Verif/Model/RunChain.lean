import Verif.Model.Chain
/-!
# Running the chain of bodies

Models the loops of numga/examples/physics/run_chain_numpy.py, run_chain_jax.py and run_chain_torch.py (without the timing, the printing and the rendering).
-/
namespace Verif.Model.Chain
variable {R : Type} [Field R] [DecidableEq R] (A : Alg) (rt : Roots R) (fuel : Nat) (tiny : R)

/-- `step`, numga/examples/physics/run_chain_numpy.py:26-30 and run_chain_jax.py:37-41: `unroll` steps of `dt / unroll`.  With `unroll = 0` there is no step. -/
def step (bodies : List (Body R)) (sets : List (List (Link R))) (dt : R) (unroll : Nat := 10) : Except Fail (List (Body R)) :=
  (List.range unroll).foldlM (fun bodies _ => Link.integrate A rt fuel tiny sets bodies (dt / unroll)) bodies

/-- `step`, numga/examples/physics/run_chain_torch.py:33-37: ten steps of `dt / unroll`, whatever `unroll` is.  `dt / 0` raises. -/
def stepTorch (bodies : List (Body R)) (sets : List (List (Link R))) (dt : R) (unroll : Nat := 10) : Except Fail (List (Body R)) :=
  if unroll = 0 then .error .raised
  else (List.range 10).foldlM (fun bodies _ => Link.integrate A rt fuel tiny sets bodies (dt / unroll)) bodies

/-- The main loop, numga/examples/physics/run_chain_numpy.py:40-46 (`count` is 10 there, 1000 in run_chain_jax.py:61-67 and 20 in run_chain_torch.py:57-63, `dt` is
`1 / 20` in all three): the bodies at the end, and the states that are kept for rendering. -/
def run (count : Nat) (bodies : List (Body R)) (sets : List (List (Link R))) (dt : R) : Except Fail (List (Body R) × List (List (Body R))) :=
  (List.range count).foldlM (fun x i => do
    let bodies ← step A rt fuel tiny x.1 sets dt
    .ok (bodies, if i % 10 = 0 then x.2 ++ [bodies] else x.2)) (bodies, [])

end Verif.Model.Chain
