import Verif.Model.Backend
/-! # Model of numga/examples/ga_sparse.py

Sparse matrices with multivectors as entries.  The arrays of values, of shape `(entries, components)`, are lists of lists; calls of
operators on such arrays are calls on their entries (C86). -/
namespace Verif.Model
variable {R : Type} [CommRing R]

/-- An entry: row, column and values. -/
abbrev Entry (R : Type) := Nat × Nat × List R

/-- `MatrixContainer`, numga/examples/ga_sparse.py:48-52,97-105: `shape`, `subspace`, and `rows`, `columns`, `values` entry by entry. -/
structure GAMatrix (R : Type) where
  rows : Nat
  cols : Nat
  sub : SubSpace
  entries : List (Entry R)
  deriving DecidableEq

/-- A vector of multivectors: an array of shape `(length, components)`. -/
structure GAVector (R : Type) where
  sub : SubSpace
  vals : List (List R)
  deriving DecidableEq

/-- One step of `npi.group_by((columns, rows)).sum(values)`, numga/examples/ga_sparse.py:99: entries sorted by row, then column (`np.lexsort`
sorts by the last key first), values of equal keys added. -/
def addEntry (e : Entry R) : List (Entry R) → List (Entry R)
  | [] => [e]
  | f :: l =>
    if e.1 < f.1 ∨ (e.1 = f.1 ∧ e.2.1 < f.2.1) then e :: f :: l
    else if e.1 = f.1 ∧ e.2.1 = f.2.1 then (f.1, f.2.1, List.zipWith (· + ·) f.2.2 e.2.2) :: l
    else f :: addEntry e l

namespace GAMatrix

/-- `MatrixContainer.__init__`, numga/examples/ga_sparse.py:97-105.  Without entries `group_by` raises, since `np.add.reduceat` rejects the
index 0. -/
def construct (m n : Nat) (S : SubSpace) (l : List (Entry R)) : Option (GAMatrix R) :=
  if l = [] then none else some ⟨m, n, S, l.foldl (fun acc e => addEntry e acc) []⟩

/-- `diag`, numga/examples/ga_sparse.py:54-64. -/
def diag (x : GAVector R) : Option (GAMatrix R) :=
  construct x.vals.length x.vals.length x.sub (x.vals.mapIdx fun i v => (i, i, v))

/-- `from_scipy`, numga/examples/ga_sparse.py:65-73; the sparse matrix by its coordinates. -/
def fromScipy (A : Alg) (m n : Nat) (l : List (Nat × Nat × R)) : Option (GAMatrix R) := do
  construct m n (← A.scalar) (l.map fun e => (e.1, e.2.1, [e.2.2]))

/-- `copy` with the values of an operator applied to every entry, numga/examples/ga_sparse.py:74-80; `args` completes the arguments. -/
def mapOp (op : Option (Operator Int)) (M : GAMatrix R) (m n : Nat) (key : Entry R → Nat × Nat) (args : List (MV R)) : Option (GAMatrix R) := do
  let o ← op
  let l ← M.entries.mapM fun e => do
    let z ← MV.call (some o) (⟨M.sub, e.2.2⟩ :: args)
    some ((key e).1, (key e).2, z.vals)
  construct m n o.output l

/-- `MatrixOperator.matscalar`, numga/examples/ga_sparse.py:158-161, for the operator factory method `f`. -/
def matscalar (f : SubSpace → SubSpace → Option (Operator Int)) (M : GAMatrix R) (x : MV R) : Option (GAMatrix R) :=
  M.mapOp (f M.sub x.sub) M.rows M.cols (fun e => (e.1, e.2.1)) [x]

/-- `__mul__` by a number, numga/examples/ga_sparse.py:107-110. -/
def scale (A : Alg) (M : GAMatrix R) (c : R) : Option (GAMatrix R) := do
  M.matscalar (fun S T => Factory.product A (.sub S) (.sub T)) (← MV.upcast A (.num c))

/-- `__neg__`, numga/examples/ga_sparse.py:132-133. -/
def neg (M : GAMatrix R) : Option (GAMatrix R) := construct M.rows M.cols M.sub (M.entries.map fun e => (e.1, e.2.1, e.2.2.map (- ·)))

/-- `self.values.select_subspace(subspace)`, numga/examples/ga_sparse.py:127. -/
def selected (A : Alg) (M : GAMatrix R) (S : SubSpace) : Option (List (Entry R)) :=
  M.entries.mapM fun e => do some (e.1, e.2.1, (← MV.selectSubspace A ⟨M.sub, e.2.2⟩ S).vals)

/-- `__add__`, numga/examples/ga_sparse.py:120-128. -/
def add (A : Alg) (M N : GAMatrix R) : Option (GAMatrix R) := do
  if M.rows = N.rows ∧ M.cols = N.cols then
    let S ← M.sub.union A N.sub
    construct M.rows M.cols S ((← M.selected A S) ++ (← N.selected A S))
  else none

/-- `__sub__`, numga/examples/ga_sparse.py:130-131. -/
def sub' (A : Alg) (M N : GAMatrix R) : Option (GAMatrix R) := do M.add A (← N.neg)

/-- `reverse` and `__invert__`, numga/examples/ga_sparse.py:137-146. -/
def reverse (A : Alg) (M : GAMatrix R) : Option (GAMatrix R) :=
  M.mapOp (Factory.reverse A (.sub M.sub)) M.cols M.rows (fun e => (e.2.1, e.1)) []

/-- `dual`, numga/examples/ga_sparse.py:148-149. -/
def dual (A : Alg) (M : GAMatrix R) : Option (GAMatrix R) :=
  M.mapOp (Factory.rightHodge A (.sub M.sub)) M.rows M.cols (fun e => (e.1, e.2.1)) []

/-- `np.concatenate(([0], np.flatnonzero(np.diff(rows)) + 1))`, numga/examples/ga_sparse.py:93. -/
def starts (rows : List Nat) : List Nat :=
  0 :: (((rows.zip rows.tail).zipIdx.filter fun p => p.1.1 ≠ p.1.2).map fun p => p.2 + 1)

/-- `indices`, numga/examples/ga_sparse.py:88-95, with its assertion. -/
def indices (M : GAMatrix R) : Option (List Nat) :=
  let s := starts (M.entries.map (·.1))
  if s.length = M.rows then some s else none

/-- `np.add.reduceat`, numga/examples/ga_sparse.py:167: sums from each index up to the next one, for increasing indices; an index that is
not inside the array raises. -/
def reduceat (k : Nat) (l : List (List R)) (idx : List Nat) : Option (List (List R)) :=
  if ∀ i ∈ idx, i < l.length then
    some ((idx.zip (idx.tail ++ [l.length])).map fun p => ((l.drop p.1).take (p.2 - p.1)).foldl (List.zipWith (· + ·)) (List.replicate k 0))
  else none

/-- `MatrixOperator.matvec`, numga/examples/ga_sparse.py:163-168, for the operator factory method `f`. -/
def matvec (f : SubSpace → SubSpace → Option (Operator Int)) (M : GAMatrix R) (x : GAVector R) : Option (GAVector R) := do
  if x.vals.length = M.cols then
    let o ← f M.sub x.sub
    let temp ← M.entries.mapM fun e => do
      some (← MV.call (some o) [⟨M.sub, e.2.2⟩, ⟨x.sub, ← x.vals[e.2.1]?⟩]).vals
    some ⟨o.output, ← reduceat o.output.blades.length temp (← M.indices)⟩
  else none

/-- `generate_pair_idx`, numga/examples/ga_sparse.py:170-176: the pairs of an entry of the first and an entry of the second list with the
same key. -/
def pairs (a b : List (Entry R)) : List (Entry R × Entry R) :=
  a.flatMap fun e => (b.filter fun g => g.1 = e.2.1).map fun g => (e, g)

/-- `MatrixOperator.matmat`, numga/examples/ga_sparse.py:178-187.  Without pairs the unpacking `a_idx, b_idx = ..` of an empty array
raises. -/
def matmat (f : SubSpace → SubSpace → Option (Operator Int)) (M N : GAMatrix R) : Option (GAMatrix R) := do
  if M.cols = N.rows ∧ pairs M.entries N.entries ≠ [] then
    let o ← f M.sub N.sub
    let l ← (pairs M.entries N.entries).mapM fun p => do
      some (p.1.1, p.2.2.1, (← MV.call (some o) [⟨M.sub, p.1.2.2⟩, ⟨N.sub, p.2.2.2⟩]).vals)
    construct M.rows N.cols o.output l
  else none

end GAMatrix

/-- `BoundMatrixOperator`, numga/examples/ga_sparse.py:201-211: the container, the operator, and its first input bound to every entry. -/
structure BoundMatrix (R : Type) where
  container : GAMatrix R
  operator : Operator Int
  bound : List (Operator R)

namespace BoundMatrix

/-- `__init__`, numga/examples/ga_sparse.py:207-211, from `MatrixOperator.__call__` on a subspace, line 191. -/
def bind (f : SubSpace → SubSpace → Option (Operator Int)) (M : GAMatrix R) (T : SubSpace) : Option (BoundMatrix R) := do
  let o ← f M.sub T
  some ⟨M, o, ← M.entries.mapM fun e => (o.cast R).partialApply [(0, ⟨M.sub, e.2.2⟩)]⟩

/-- `matvec`, numga/examples/ga_sparse.py:213-217. -/
def matvec (B : BoundMatrix R) (x : GAVector R) : Option (GAVector R) := do
  if x.vals.length = B.container.cols then
    let temp ← (B.container.entries.zip B.bound).mapM fun p => do
      some (← einsumCallMV p.2 [⟨x.sub, ← x.vals[p.1.2.1]?⟩]).vals
    some ⟨B.operator.output, ← GAMatrix.reduceat B.operator.output.blades.length temp (← B.container.indices)⟩
  else none

/-- `block_shape`, numga/examples/ga_sparse.py:224-232. -/
def blockShape (B : BoundMatrix R) : Nat × Nat := ((B.operator.axes.getD 2 ⟨[]⟩).blades.length, (B.operator.axes.getD 1 ⟨[]⟩).blades.length)

/-- `as_dense`, numga/examples/ga_sparse.py:234-238.  The array of kernels, of shape `(entries, j, i)`, is assigned to entries of shape
`(i, j)`, which raises unless the shapes agree.  An entry outside of the shape raises. -/
def asDense (B : BoundMatrix R) : Option (List (List R)) :=
  let (i, j) := B.blockShape
  if i = j ∧ ∀ e ∈ B.container.entries, e.1 < B.container.rows ∧ e.2.1 < B.container.cols then
    some ((List.range (B.container.rows * i)).map fun a => (List.range (B.container.cols * j)).map fun b =>
      (((B.container.entries.zip B.bound).find? fun p => p.1.1 = a / i ∧ p.1.2.1 = b / j).map fun p => p.2.kernel.get [a % i, b % j]).getD 0)
  else none

/-- `as_operator`, numga/examples/ga_sparse.py:240-250, for an array with one axis. -/
def asOperator (B : BoundMatrix R) (x : List R) : Option (List R) := do
  let (_, j) := B.blockShape
  if x.length = B.container.cols * j then
    let y ← B.matvec ⟨B.operator.axes.getD 1 ⟨[]⟩, (List.range B.container.cols).map fun c => (x.drop (c * j)).take j⟩
    some y.vals.flatten
  else none

end BoundMatrix

/-- `Builder`, numga/examples/ga_sparse.py:30-33.  The list of entries is an attribute of the class: there is one for all builders. -/
structure GABuilder where
  rows : Nat
  cols : Nat
  sub : SubSpace

namespace GABuilder

/-- `add`, numga/examples/ga_sparse.py:35-39: the shared list before and after. -/
def add (A : Alg) (b : GABuilder) (shared : List (Nat × Nat × MV R)) (r c : Int) (v : MV R) : Option (List (Nat × Nat × MV R)) := do
  if b.sub.contains v.sub ∧ 0 ≤ r ∧ r < b.rows ∧ 0 ≤ c ∧ c < b.cols then
    some (shared ++ [(r.toNat, c.toNat, ← v.selectSubspace A b.sub)])
  else none

/-- `finalize`, numga/examples/ga_sparse.py:41-45.  Values of different lengths do not form an array. -/
def finalize (b : GABuilder) (shared : List (Nat × Nat × MV R)) : Option (GAMatrix R) :=
  if ∀ e ∈ shared, e.2.2.vals.length = b.sub.blades.length then
    GAMatrix.construct b.rows b.cols b.sub (shared.map fun e => (e.1, e.2.1, e.2.2.vals))
  else none

end GABuilder
end Verif.Model
