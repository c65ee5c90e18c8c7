import Verif.Model.Algebra
import Mathlib.Data.List.Dedup
import Mathlib.Data.List.Sort
/-!
# Model of `numga/subspace/subspace.py` and `numga/subspace/factory.py`

A subspace is its array of blades.  The flyweight pool (identity = equality of the blade arrays) is modelled
separately in `Verif.Model.Flyweight`; here equality of subspaces is equality of blade lists.
`none` results are Python exceptions.
-/
namespace Verif.Model

/-- `SubSpace`, numga/subspace/subspace.py:14-28 (the parent algebra is passed separately). -/
structure SubSpace where
  blades : List Nat
deriving DecidableEq, Repr

/-- `len(subspace)`, numga/subspace/subspace.py:46-47. -/
def SubSpace.len (S : SubSpace) : Nat := S.blades.length

/-- Comparison of two blades in the canonical order: the keys of
`np.lexsort((blades, grade))`, numga/subspace/factory.py:52-55. -/
def Alg.bladeLe (A : Alg) (a b : Nat) : Bool :=
  decide (A.grade a < A.grade b) || (A.grade a == A.grade b && decide (a ≤ b))

/-- `order_blades` with the default order `'fancy'`, numga/subspace/factory.py:26-56: cast to the blade dtype,
then a stable sort on (grade, blade).  The other two orders are not modelled (never used by `Algebra`). -/
def Alg.orderBlades (A : Alg) (l : List Nat) : List Nat :=
  (l.map A.toDtype).insertionSort (A.bladeLe · · = true)

/-- `from_blades`, numga/subspace/factory.py:84-88, and the uniqueness assertion of
`SubSpace.__init__`, numga/subspace/subspace.py:25. -/
def Alg.fromBlades (A : Alg) (l : List Nat) : Option SubSpace :=
  let bs := A.orderBlades l
  if bs.Nodup then some ⟨bs⟩ else none

/-- `blades_by_grade`, numga/subspace/factory.py:76-82.  `np.arange(n_blades)` is `int64` (8 bytes); `group_by`
keeps the order within a group; the keys are asserted to be `0..n`. -/
def Alg.bladesByGrade (A : Alg) : List (List Nat) :=
  (List.range (A.n + 1)).map fun g => (List.range (2 ^ A.n)).filter fun b => bitCount 8 b == g

/-- Integer index into a sequence of length `len`, with Python's negative indices.  `none` is `IndexError`. -/
def pyIndex (len : Nat) (i : Int) : Option Nat :=
  if 0 ≤ i then (if i.toNat < len then some i.toNat else none)
  else if 0 ≤ i + len then some (i + len).toNat else none

/-- `from_grades`, numga/subspace/factory.py:90-91.  `np.concatenate` of an empty selection raises. -/
def Alg.fromGrades (A : Alg) (gs : List Int) : Option SubSpace := do
  let blocks ← gs.mapM fun g => (pyIndex (A.n + 1) g).bind (A.bladesByGrade[·]?)
  if blocks = [] then none else A.fromBlades blocks.flatten

/-- `k_vector`, numga/subspace/factory.py:95-97. -/
def Alg.kVector (A : Alg) (k : Int) : Option SubSpace := A.fromGrades [k]

/-- `blade`, numga/subspace/factory.py:98-100. -/
def Alg.bladeSpace (A : Alg) (b : Nat) : Option SubSpace := A.fromBlades [b]

/-- `multivector`/`full`, numga/subspace/factory.py:132-135: `blades_by_grade[...]` is all groups. -/
def Alg.full (A : Alg) : Option SubSpace := A.fromBlades A.bladesByGrade.flatten

/-- `empty`, numga/subspace/factory.py:136-138. -/
def Alg.empty (A : Alg) : Option SubSpace := A.fromBlades []

/-- `scalar`, numga/subspace/factory.py:103-104. -/
def Alg.scalar (A : Alg) : Option SubSpace := A.kVector 0
/-- `vector`, numga/subspace/factory.py:105-106. -/
def Alg.vector (A : Alg) : Option SubSpace := A.kVector 1
/-- `bivector`, numga/subspace/factory.py:107-108. -/
def Alg.bivector (A : Alg) : Option SubSpace := A.kVector 2
/-- `trivector`, numga/subspace/factory.py:109-110. -/
def Alg.trivector (A : Alg) : Option SubSpace := A.kVector 3
/-- `quadvector`, numga/subspace/factory.py:111-112. -/
def Alg.quadvector (A : Alg) : Option SubSpace := A.kVector 4
/-- `pseudoscalar`, numga/subspace/factory.py:114-115. -/
def Alg.pseudoscalar (A : Alg) : Option SubSpace := A.kVector (-1)
/-- `antivector`, numga/subspace/factory.py:118-119. -/
def Alg.antivector (A : Alg) : Option SubSpace := A.kVector (-2)
/-- `antibivector`, numga/subspace/factory.py:120-121. -/
def Alg.antibivector (A : Alg) : Option SubSpace := A.kVector (-3)
/-- `scalar_pseudoscalar`, numga/subspace/factory.py:126-127. -/
def Alg.scalarPseudoscalar (A : Alg) : Option SubSpace := A.fromGrades [0, -1]
/-- `self.grades`, numga/subspace/factory.py:24. -/
def Alg.grades (A : Alg) : List Int := (List.range (A.n + 1)).map Int.ofNat
/-- `nonscalar`, numga/subspace/factory.py:129-130. -/
def Alg.nonscalar (A : Alg) : Option SubSpace := A.fromGrades A.grades.tail
/-- `even_grade`, numga/subspace/factory.py:140-142: `grades[0::2]`. -/
def Alg.evenGrade (A : Alg) : Option SubSpace := A.fromGrades (A.grades.filter (· % 2 == 0))
/-- `odd_grade`, numga/subspace/factory.py:154-156: `grades[1::2]`. -/
def Alg.oddGrade (A : Alg) : Option SubSpace := A.fromGrades (A.grades.filter (· % 2 == 1))
/-- `self_reverse`, numga/subspace/factory.py:170-173. -/
def Alg.selfReverse (A : Alg) : Option SubSpace := A.fromGrades (A.grades.filter (fun g => g / 2 % 2 == 0))
/-- `mod4`, numga/subspace/factory.py:181-186: `grades[0::4]`. -/
def Alg.mod4 (A : Alg) : Option SubSpace := A.fromGrades (A.grades.filter (· % 4 == 0))

/-- `from_bit_str`, numga/subspace/factory.py:92-93, after splitting the string at the commas: every part is a
list of binary digits, lowest basis vector first. -/
def Alg.fromBitLists (A : Alg) (parts : List (List Nat)) : Option SubSpace :=
  (parts.mapM bitPack).bind A.fromBlades

/-- `bit_str` before joining with commas, numga/subspace/subspace.py:64-72. -/
def SubSpace.bitLists (A : Alg) (S : SubSpace) : List (List Nat) := S.blades.map (biterator · A.n)

/-- `grades()`, numga/subspace/subspace.py:32-40. -/
def SubSpace.grades (A : Alg) (S : SubSpace) : List Nat := S.blades.map A.grade

/-- `match`, numga/util.py:17-27. -/
def pyMatch {α : Type} [DecidableEq α] (l : List α) : Option α :=
  match l with
  | [] => none
  | a :: as => if as.all (· == a) then some a else none

/-- `grade()`, numga/subspace/subspace.py:42-44. -/
def SubSpace.grade (A : Alg) (S : SubSpace) : Option Nat := pyMatch (S.grades A)

/-- `complement`, numga/subspace/subspace.py:135-142. -/
def SubSpace.complement (A : Alg) (S : SubSpace) : Option SubSpace := do
  let p ← A.pseudoscalar
  A.fromBlades (S.blades.map (· ^^^ p.blades.headD 0))

/-- `degenerate`, numga/subspace/subspace.py:145-151. -/
def SubSpace.degenerate (A : Alg) (S : SubSpace) : Option SubSpace :=
  A.fromBlades (S.blades.filter fun b => decide (A.bitDot b A.zeros > 0))
/-- `nondegenerate`, numga/subspace/subspace.py:152-155. -/
def SubSpace.nondegenerate (A : Alg) (S : SubSpace) : Option SubSpace :=
  A.fromBlades (S.blades.filter fun b => A.bitDot b A.zeros == 0)

/-- `intersection`, numga/subspace/subspace.py:231-236 (Python sets; `from_blades` sorts anyway). -/
def SubSpace.intersection (A : Alg) (S T : SubSpace) : Option SubSpace :=
  A.fromBlades (S.blades.dedup.filter (· ∈ T.blades))
/-- `union`, numga/subspace/subspace.py:237-242. -/
def SubSpace.union (A : Alg) (S T : SubSpace) : Option SubSpace :=
  A.fromBlades (S.blades ++ T.blades).dedup
/-- `difference`, numga/subspace/subspace.py:243-248. -/
def SubSpace.difference (A : Alg) (S T : SubSpace) : Option SubSpace :=
  A.fromBlades (S.blades.dedup.filter (· ∉ T.blades))
/-- `is_subspace`, numga/subspace/subspace.py:249-254. -/
def SubSpace.isSubspace (S T : SubSpace) : Bool := S == T || S.blades.all (T.blades.contains ·)
/-- `__contains__`, numga/subspace/subspace.py:262-263: `other in self`. -/
def SubSpace.contains (S other : SubSpace) : Bool := other.isSubspace S
/-- `restrict_subspace`, numga/subspace/subspace.py:258-260. -/
def SubSpace.restrictSubspace (A : Alg) (S T : SubSpace) : Option SubSpace := S.intersection A T
/-- `select_subspace`, numga/subspace/subspace.py:255-257. -/
def SubSpace.selectSubspace (A : Alg) (S T : SubSpace) : Option SubSpace :=
  (S.restrictSubspace A T).bind (T.union A ·)

/-- `slice_subspace` with an index array, numga/subspace/subspace.py:265-267.  `none`: `IndexError`, or
duplicate indices (the uniqueness assertion). -/
def SubSpace.slice (A : Alg) (S : SubSpace) (idx : List Nat) : Option SubSpace :=
  (idx.mapM (S.blades[·]?)).bind A.fromBlades

/-- `to_relative_indices`, numga/subspace/subspace.py:271-276 (`npi.indices`, raises `KeyError` on a missing
blade). -/
def SubSpace.toRelativeIndices (S : SubSpace) (blades : List Nat) : Option (List Nat) :=
  blades.mapM fun b => if b ∈ S.blades then some (S.blades.idxOf b) else none

/-- `SubSpaceFactory.__getattr__`, numga/subspace/factory.py:58-68, after splitting the attribute name at `_`:
each part is a list of letters, and the blades of the single-letter basis vectors are *added*
(in the blade dtype).  `none`: a letter that is not a basis name (`ValueError`). -/
def Alg.attr (A : Alg) (parts : List (List Char)) : Option SubSpace := do
  let v ← A.vector
  let blades ← parts.mapM fun part => do
    let bs ← part.mapM fun c =>
      if [c] ∈ A.desc.names then v.blades[A.desc.names.idxOf [c]]? else none
    if bs = [] then none else some (bs.foldl (fun acc b => A.toDtype (acc + b)) 0)
  A.fromBlades blades

end Verif.Model
