import Verif.Model.Physics
/-!
# Sets of bodies and of constraints

Models the leading axes of numga/examples/physics/base.py and numga/examples/physics/core.py: a set of bodies is the list of its entries, a set
of constraints the list of its columns.  Fields of `Body` that are arrays over a common subspace are kept per entry.  Arithmetic is exact, and
a division by zero in one entry makes the whole step fail (numpy warns and puts nan into that entry).
-/
namespace Verif.Model
variable {R : Type} [Field R] [DecidableEq R]

/-- `x[idx]` for one integer in an index array, numga/backend/numpy/multivector.py:30-31; out of range it raises `IndexError`. -/
def pyGet {α : Type} (l : List α) (i : Int) : Option α := do l[← pyIndex l.length i]?

/-- `values[idx] = rows` on a copy, numga/backend/numpy/context.py:28-31, for an array of rows and an index array over its first axis: the
assignments are made in the order of the index array, so of several assignments to one row the last one stays.  Rows of another length
raise (numpy would repeat a row of length one: not modelled). -/
def setRows (rows : List (List R)) (writes : List (Int × List R)) : Option (List (List R)) :=
  writes.foldlM (fun rows w => do
    let k ← pyIndex rows.length w.1
    let old ← rows[k]?
    if w.2.length = old.length then some (rows.set k w.2) else none) rows

/-- A column of a set of constraints, numga/examples/physics/base.py:135-137: the indices of the two bodies, the anchors and the compliance. -/
structure Link (R : Type) where
  idx0 : Int
  idx1 : Int
  constraint : Constraint R

/-- `BodyBase.__getitem__` with an array of integers, numga/examples/physics/base.py:56-68. -/
def takeBodies (A : Alg) (bodies : List (Body R)) (idx : List Int) : Except Fail (List (Body R)) :=
  idx.mapM fun i => do (← lift (pyGet bodies i)).init A

/-- `x[start::2]`, the slice used in numga/examples/physics/setup_chain.py:67. -/
def everySecond {α : Type} : List α → List α
  | [] => []
  | [x] => [x]
  | x :: _ :: l => x :: everySecond l

namespace Link

/-- The flattened `body_idx`, numga/examples/physics/base.py:143: first the row of the first bodies, then that of the second ones. -/
def bodyIdx (links : List (Link R)) : List Int := links.map (·.idx0) ++ links.map (·.idx1)

/-- `self.unique`, numga/examples/physics/base.py:147. -/
def unique (links : List (Link R)) : Bool := (bodyIdx links).dedup.length == (bodyIdx links).length

section
variable (A : Alg) (rt : Roots R) (fuel : Nat) (tiny : R)

/-- `Constraint.apply`, numga/examples/physics/core.py:97-102. -/
def apply (links : List (Link R)) (bodies : List (Body R)) (dt : R) : Except Fail (List (Body R)) := do
  let motors ← links.mapM fun l => do
    let b0 ← lift (pyGet bodies l.idx0)
    let b1 ← lift (pyGet bodies l.idx1)
    l.constraint.applyIndexed A rt fuel tiny b0.motor b1.motor b0.inertiaInv b1.inertiaInv dt
  let rows ← lift (setRows (bodies.map (·.motor.vals)) (List.zip (bodyIdx links) (motors.map (·.1.vals) ++ motors.map (·.2.vals))))
  (List.zip bodies rows).mapM fun x => do x.1.copy A (some (← lift (x.1.motor.copy x.2))) none none none

/-- `Constraint.v_apply`, numga/examples/physics/core.py:122-127. -/
def vApply (links : List (Link R)) (bodies : List (Body R)) : Except Fail (List (Body R)) := do
  let rates ← links.mapM fun l => do
    let b0 ← lift (pyGet bodies l.idx0)
    let b1 ← lift (pyGet bodies l.idx1)
    l.constraint.vApplyIndexed A rt fuel tiny b0.motor b1.motor b0.rate b1.rate b0.inertiaInv b1.inertiaInv
  let rows ← lift (setRows (bodies.map (·.rate.vals)) (List.zip (bodyIdx links) (rates.map (·.1.vals) ++ rates.map (·.2.vals))))
  (List.zip bodies rows).mapM fun x => do x.1.copy A none (some (← lift (x.1.rate.copy x.2))) none none

/-- `Body.integrate` of a set of bodies with sets of constraints, numga/examples/physics/core.py:80-88. -/
def integrate (sets : List (List (Link R))) (bodies : List (Body R)) (dt : R) : Except Fail (List (Body R)) := do
  let new ← bodies.mapM fun b => b.preIntegrate A rt fuel dt
  let new ← sets.foldlM (fun new c => apply A rt fuel tiny c new dt) new
  let new ← (List.zip new bodies).mapM fun x => x.1.postIntegrate A rt fuel x.2 dt
  sets.foldlM (fun new c => vApply A rt fuel tiny c new) new

end
end Link

/-- The indices of the constraints of a chain of `n` bodies, numga/examples/physics/setup_chain.py:50-51. -/
def chainIdx (n : Nat) : List (Int × Int) := (List.range (n - 1)).map fun i : Nat => ((i : Int), (i : Int) + 1)

/-- The two sets of constraints of a chain, numga/examples/physics/setup_chain.py:57-61 and 66-67: constraint `i` connects the bodies `i` and
`i + 1`; those of even and of odd index are the two sets.  The anchors and compliances are given. -/
def chainSets (n : Nat) (cs : List (Constraint R)) : List (Link R) × List (Link R) :=
  let links := List.zipWith (fun (i : Int × Int) c => ⟨i.1, i.2, c⟩) (chainIdx n) cs
  (everySecond links, everySecond (links.drop 1))

end Verif.Model
