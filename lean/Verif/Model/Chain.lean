import Verif.Model.System
import Verif.Model.MultivectorFactory
import Verif.Model.SubspaceOps
/-!
# The chain of bodies of the examples

Models numga/examples/physics/setup_chain.py.  A batch of multivectors is the list of its entries; arithmetic is exact.  The arguments `fuel`, `e`
and `n` are those of `exp`.
-/
namespace Verif.Model.Chain
variable {R : Type} [Field R] [DecidableEq R] (A : Alg)

/-- `axes`, numga/examples/physics/setup_chain.py:19: all basis vectors but the last one; without a last one the assignment raises. -/
def axes : Option (List (MV R)) := do
  let b ← MVFactory.basis A
  if b = [] then none else some b.dropLast

/-- `origin`, numga/examples/physics/setup_chain.py:19: the last basis vector. -/
def origin : Option (MV R) := do (← MVFactory.basis A).getLast?

/-- `summation`, numga/util.py:37-41, of multivectors; `reduce` of nothing raises. -/
def summation : List (MV R) → Option (MV R)
  | [] => none
  | x :: xs => xs.foldlM (fun x y => x.add A (.mv y)) x

/-- `model_space`, numga/examples/physics/setup_chain.py:20. -/
def modelSpace (R : Type) [Field R] [DecidableEq R] : Option SubSpace := do some (← summation A (← axes (R := R) A)).sub

/-- `horizon`, numga/examples/physics/setup_chain.py:21. -/
def horizon (R : Type) [Field R] [DecidableEq R] : Option SubSpace := do (← origin (R := R) A).sub.wedge A (← modelSpace A R)

/-- `make_cube`, numga/examples/physics/setup_chain.py:27-29: `np.kron` of the diagonal matrix with the row `[1, -1]`, transposed. -/
def makeCube (n : Nat) : List (List R) :=
  (List.range (2 * n)).map fun r => (List.range n).map fun i => if i = r / 2 then ((i + 1 : Nat) : R) / (n : R) * (if r % 2 = 0 then 1 else -1) else 0

/-- The rows of `np.array([d*0] * (ndim - 1) + [d]).T`, numga/examples/physics/setup_chain.py:42-43, and of
`[0] * (ndim-1) + [distance]`, numga/examples/physics/setup_chain.py:53. -/
def along (d : Nat) (t : R) : List R := List.replicate (d - 1) 0 ++ [t]

section
variable (fuel : Nat) (e : R → R) (n : Nat)

/-- `translator`, numga/examples/physics/setup_chain.py:24-25. -/
def translator (distance : List R) : Except Fail (MV R) := do
  let h ← (← lift (origin A)).truediv A fuel (.num (-2))
  let v ← lift (MVFactory.multivector A (some distance) (some (← lift (modelSpace A R))))
  (← lift (h.wedge A v)).exp A fuel e n

/-- `point_embed`, numga/examples/physics/setup_chain.py:31-34. -/
def pointEmbed (distance : List R) : Except Fail (MV R) := do
  let t ← translator A fuel e n distance
  lift (t.sandwich A (← lift (do (← origin A).dualInverse A)))

/-- The single body, numga/examples/physics/setup_chain.py:37-40. -/
noncomputable def firstBody (size damping : R) : Except Fail (Body R) := do
  let axes ← lift (axes (R := R) A)
  let points ← ((makeCube axes.length).map fun r => r.map (· * size)).mapM (pointEmbed A fuel e n)
  let b ← match points with
    | [] => .error .raised
    | p :: _ => Body.fromPointCloud A p.sub (points.map (·.vals))
  let b ← b.copy A none none (some (← lift (do (← (← axes.head?).mul A (.num (1 / 20))).dualInverse A))) none
  b.copy A none none none (some (← lift (b.damping.add A (.num damping))))

/-- `bodies.inertia_inv.at[0, :, idx].set(0)`, numga/examples/physics/setup_chain.py:63-65 with numga/backend/numpy/operator.py:30-32, for the entry
of the first body: the components of the output on the blades of `H` are set to zero. -/
def fix (H : SubSpace) (b : Body R) : Option (Body R) := do
  let idx ← b.inertiaInv.output.toRelativeIndices H.blades
  some { b with inertiaInv := ⟨⟨b.inertiaInv.kernel.shape, fun ix => if ix.getD 1 0 ∈ idx then 0 else b.inertiaInv.kernel.get ix⟩, b.inertiaInv.axes⟩ }

/-- `setup_bodies`, numga/examples/physics/setup_chain.py:8-67; with `n_bodies = 0` the shape of `np.ones((1, n_bodies - 1, 1))` raises. -/
noncomputable def setupBodies (fixing : Bool) (nBodies : Nat) (compliance distance size damping : R) :
    Except Fail (List (Body R) × List (Link R) × List (Link R)) := do
  let d := (← lift (axes (R := R) A)).length
  let b ← firstBody A fuel e n size damping
  let qs ← (List.range nBodies).mapM fun i : Nat => translator A fuel e n (along d (i * distance))
  let bodies ← takeBodies A [b] (List.replicate nBodies 0)
  let bodies ← (List.zip bodies qs).mapM fun x => do x.1.copy A (some (← lift (x.1.motor.mul A (.mv x.2)))) none none none
  if nBodies = 0 then .error .raised
  else
    let c ← Constraint.init A
      { anchor0 := ← pointEmbed A fuel e n (along d (distance / 2))
        anchor1 := ← pointEmbed A fuel e n (along d (-distance / 2))
        compliance := ← lift ((← lift (MVFactory.multivector A (some [1]) (some (← lift A.scalar)))).mul A (.num compliance)) }
    let bodies ← match fixing, bodies with
      | false, bs => .ok bs
      | true, [] => .error .raised
      | true, b :: bs => do .ok ((← lift (fix (← lift (horizon A R)) b)) :: bs)
    .ok (bodies, chainSets nBodies (List.replicate (nBodies - 1) c))

end
end Verif.Model.Chain
