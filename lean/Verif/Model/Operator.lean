import Verif.Model.Tensor
/-!
# Model of `numga/operator/operator.py` and `numga/operator/sparse_tensor.py`

Not modelled: negative axis numbers, printing (`__str__`, `tokenize`).
-/
namespace Verif.Model

/-- `Operator`, numga/operator/operator.py:13-21: a kernel and one subspace per axis, the output last. -/
structure Operator (K : Type) where
  kernel : Tensor K
  axes : List SubSpace

variable {K : Type}

/-- `output`, numga/operator/operator.py:75-77.  `none`: `IndexError` on an operator without axes. -/
def Operator.output? (op : Operator K) : Option SubSpace := op.axes.getLast?
/-- `output`/`subspace` of an operator that has axes, numga/operator/operator.py:31-34,75-77. -/
def Operator.output (op : Operator K) : SubSpace := op.axes.getLastD ⟨[]⟩
/-- `inputs`, numga/operator/operator.py:78-80. -/
def Operator.inputs (op : Operator K) : List SubSpace := op.axes.dropLast
/-- `arity`, numga/operator/operator.py:72-74. -/
def Operator.arity (op : Operator K) : Nat := op.inputs.length

/-- `add`, numga/operator/operator.py:82-83 (`match` raises unless the axes agree). -/
def Operator.add [Add K] (a b : Operator K) : Option (Operator K) :=
  if a.axes = b.axes then (a.kernel.add b.kernel).map fun k => ⟨k, a.axes⟩ else none
/-- `mul`, numga/operator/operator.py:88-90. -/
def Operator.mul [Mul K] (a : Operator K) (s : K) : Operator K := ⟨a.kernel.map (· * s), a.axes⟩
/-- `div`, numga/operator/operator.py:91-93: integer floor division.  Division by the constant 2 only in the
code base; `s = 0` is outside the model. -/
def Operator.div (a : Operator Int) (s : Int) : Operator Int := ⟨a.kernel.map (Int.fdiv · s), a.axes⟩
/-- `__neg__`, numga/operator/operator.py:99-100. -/
def Operator.neg (a : Operator Int) : Operator Int := a.mul (-1)
/-- `__sub__`, numga/operator/operator.py:97-98. -/
def Operator.sub (a b : Operator Int) : Option (Operator Int) := a.add b.neg

/-- Exchange of two positions of the axes tuple, numga/operator/operator.py:60-61. -/
def swapAxes (l : List SubSpace) (a b : Nat) : List SubSpace :=
  (l.set a (l.getD b ⟨[]⟩)).set b (l.getD a ⟨[]⟩)
/-- `swapaxes`, numga/operator/operator.py:59-65. -/
def Operator.swapaxes (op : Operator K) (a b : Nat) : Option (Operator K) :=
  if a < op.axes.length ∧ b < op.axes.length then
    (op.kernel.swapaxes a b).map fun k => ⟨k, swapAxes op.axes a b⟩
  else none

/-- `squeeze`, numga/operator/operator.py:208-220, for exact entries (the epsilon used for floating-point
kernels is not modelled).  `slice_subspace` goes through `from_blades`. -/
def Operator.squeeze [Zero K] [DecidableEq K] (A : Alg) (op : Operator K) : Option (Operator K) := do
  let out ← op.output?
  let indices := (List.range (op.kernel.shape.getLastD 0)).filter op.kernel.anyInputs
  let output ← out.slice A indices
  let k ← op.kernel.take indices (op.kernel.ndim - 1)
  some ⟨k, op.axes.dropLast ++ [output]⟩

/-- `fuse`, numga/operator/operator.py:130-138: the output of `self` feeds input `axis` of `other`. -/
def Operator.fuse [CommRing K] (self other : Operator K) (axis : Nat) : Option (Operator K) := do
  let out ← self.output?
  let ax ← other.axes[axis]?
  if out ≠ ax then none else
  let k ← self.kernel.tensordot other.kernel axis
  let k ← k.moveaxis (List.range' self.arity axis) (List.range axis)
  some ⟨k, other.axes.take axis ++ self.inputs ++ other.axes.drop (axis + 1)⟩

/-- `bind` with a dict of operators, numga/operator/operator.py:140-161: axes in decreasing order. -/
def Operator.bind [CommRing K] (self : Operator K) (d : List (Nat × Operator K)) : Option (Operator K) :=
  (d.insertionSort fun p q => p.1 ≥ q.1).foldlM (fun fused p => p.2.fuse fused p.1) self

/-- A subspace or an operator, the argument type of the factory functions. -/
inductive Arg (K : Type) where
  | sub (S : SubSpace)
  | op (O : Operator K)

/-- `.subspace` of an argument, numga/operator/operator.py:31-34 and numga/subspace/subspace.py (`subspace`
property returning `self`). -/
def Arg.subspace : Arg K → SubSpace
  | .sub S => S
  | .op O => O.output

/-- The dict `{i: a for i, a in enumerate(args) if isinstance(a, Operator)}`,
numga/operator/operator.py:40-44,47-51. -/
def operatorsOf (args : List (Arg K)) (start : Nat := 0) : List (Nat × Operator K) :=
  match args with
  | [] => []
  | .sub _ :: rest => operatorsOf rest (start + 1)
  | .op O :: rest => (start, O) :: operatorsOf rest (start + 1)

/-- `_build`, numga/operator/operator.py:46-52. -/
def Operator.build_ [CommRing K] (self : Operator K) (args : List (Arg K)) : Option (Operator K) :=
  self.bind (operatorsOf args)

/-- `Operator.build`, numga/operator/operator.py:36-45. -/
def Operator.build [CommRing K] (kernel : Tensor K) (args : List (Arg K)) : Option (Operator K) :=
  (⟨kernel, args.map Arg.subspace⟩ : Operator K).build_ args

/-- `slice`, numga/operator/operator.py:180-189.  `none`: more inputs than axes (`IndexError`), or a blade
missing from an axis (`KeyError`). -/
def Operator.sliceLoop (op : Operator K) : Nat → List SubSpace → Option (Operator K)
  | _, [] => some op
  | i, axis :: rest => do
    let old ← op.axes[i]?
    let idx ← old.toRelativeIndices axis.blades
    let k ← op.kernel.take idx i
    Operator.sliceLoop ⟨k, op.axes.set i axis⟩ (i + 1) rest
@[inherit_doc Operator.sliceLoop]
def Operator.slice (op : Operator K) (inputs : List SubSpace) : Option (Operator K) := op.sliceLoop 0 inputs

/-- `np.pad(kernel, (0, 1))` in every axis with zeros, numga/operator/operator.py:174. -/
def Tensor.pad1 [Zero K] (t : Tensor K) : Tensor K :=
  { shape := t.shape.map (· + 1)
    get := fun idx => if List.Forall₂ (· < ·) idx t.shape then t.get idx else 0 }

/-- The loop of `deslice`, numga/operator/operator.py:175-177: `npi.indices(..., missing=shape[i])`. -/
def desliceLoop (shape : List Nat) (old : List SubSpace) : Nat → List SubSpace → Tensor K → Option (Tensor K)
  | _, [], k => some k
  | i, axis :: rest, k => do
    let o ← old[i]?
    let idx := axis.blades.map fun b => if b ∈ o.blades then o.blades.idxOf b else shape.getD i 0
    let k ← k.take idx i
    desliceLoop shape old (i + 1) rest k
/-- `deslice`, numga/operator/operator.py:171-178. -/
def Operator.deslice [Zero K] (op : Operator K) (axes : List SubSpace) : Option (Operator K) := do
  let k ← desliceLoop op.kernel.shape op.axes 0 axes op.kernel.pad1
  some ⟨k, axes⟩

/-- `identity.take(i.blades, 0).take(o.blades, 1)` of the full identity matrix,
numga/operator/operator.py:193,197 and numga/operator/factory.py:83,87.  `none`: a blade out of range. -/
def selectKernel [Zero K] [One K] (A : Alg) (i o : SubSpace) : Option (Tensor K) :=
  let identity : Tensor K :=
    { shape := [2 ^ A.n, 2 ^ A.n], get := fun idx => if idx.getD 0 0 = idx.getD 1 0 then 1 else 0 }
  (identity.take i.blades 0).bind (·.take o.blades 1)

/-- `select_subspace`, numga/operator/operator.py:191-199. -/
def Operator.selectSubspace [CommRing K] (A : Alg) (self : Operator K) (output : SubSpace) : Option (Operator K) := do
  let k ← selectKernel A self.output output
  Operator.build k [.op self, .sub output]

/-- `select_grade`, numga/operator/operator.py:200-202. -/
def Operator.selectGrade [CommRing K] (A : Alg) (self : Operator K) (k : Int) : Option (Operator K) := do
  self.selectSubspace A (← A.kVector k)

/-- `grade_selection`, numga/operator/operator.py:222-231; the formula sees the grades (as `int8`, no overflow as
grades are at most 32) of all axes. -/
def Operator.gradeSelection (A : Alg) (op : Operator Int) (formula : List Int → Bool) : Option (Operator Int) :=
  Operator.squeeze A
    ⟨{ shape := op.kernel.shape
       get := fun idx =>
         op.kernel.get idx *
           (if formula (List.zipWith (fun (a : SubSpace) i => ((a.grades A).getD i 0 : Int)) op.axes idx)
            then 1 else 0) }, op.axes⟩

/-- Sum over all permutations of `np.moveaxis(kernel, axes, perm)`, numga/operator/operator.py:121-122. -/
def symmetrySum [Add K] [Zero K] (k : Tensor K) (axes : List Nat) : Option (Tensor K) := do
  let ts ← axes.permutations'.mapM fun p => k.moveaxis axes p
  ts.foldlM (fun acc t => acc.add t) (Tensor.zeros k.shape)

/-- Do all entries of the array satisfy `p`? -/
def Tensor.all (t : Tensor K) (p : K → Bool) : Bool := (allIdx t.shape).all fun i => p (t.get i)

/-- `symmetry`, numga/operator/operator.py:108-128, for non-negative axes.  `itertools.permutations` enumerates in
a different order than `List.permutations'`; the sum is the same. -/
def Operator.symmetry (A : Alg) (op : Operator Int) (axes : List Nat) : Option (Operator Int) := do
  let spaces ← axes.mapM (op.axes[·]?)
  let _ ← pyMatch spaces
  let k ← symmetrySum op.kernel axes
  let p : Int := axes.permutations'.length
  let kernel := k.map (Int.fdiv · p)
  let exact := (allIdx k.shape).all fun i => decide (kernel.get i * p = k.get i)
  let final : Tensor Int :=
    if exact then kernel
    else { shape := op.kernel.shape
           get := fun idx => op.kernel.get idx * (if k.anyInputs (idx.getLastD 0) then 1 else 0) }
  Operator.squeeze A ⟨final, op.axes⟩

/-- `sum`, numga/operator/operator.py:233-238. -/
def Operator.sum (A : Alg) (op : Operator Int) (axis : Nat) : Option (Operator Int) :=
  if axis < op.kernel.ndim then
    Operator.squeeze A
      ⟨{ shape := op.kernel.shape.eraseIdx axis
         get := fun idx => ((List.range (op.kernel.shape.getD axis 0)).map fun m =>
           op.kernel.get (idx.take axis ++ m :: idx.drop axis)).sum }, op.axes.eraseIdx axis⟩
  else none

/-- A coordinate-list tensor, numga/operator/sparse_tensor.py:9-12, stored as a list of (coordinates, value). -/
abbrev SparseTensor := List (List Nat × Int)

/-- `from_cayley`, numga/operator/sparse_tensor.py:14-22: the coordinates are the blades of the inputs and the given
output blade.  `np.indices` produces the indices in the dtype of the Cayley table (the blade dtype). -/
def fromCayley (A : Alg) (inputs : List SubSpace) (cayley : List Nat → Nat) (sign : List Nat → Int) : SparseTensor :=
  (allIdx (inputs.map (·.blades.length))).map fun idx =>
    (List.zipWith (fun (inp : SubSpace) i => inp.blades.getD (A.toDtype i) 0) inputs idx ++ [cayley idx], sign idx)

/-- `to_dense`, numga/operator/sparse_tensor.py:24-31: blades are translated to indices (`KeyError` when missing),
later entries overwrite earlier ones. -/
def SparseTensor.toDense (t : SparseTensor) (axes : List SubSpace) : Option (Tensor Int) := do
  let entries ← t.mapM fun e => do
    let idx ← (e.1.zip axes).mapM fun p => if p.1 ∈ p.2.blades then some (p.2.blades.idxOf p.1) else none
    some (idx, e.2)
  some { shape := axes.map (·.blades.length)
         get := fun idx => match entries.reverse.find? (·.1 == idx) with
           | some e => e.2
           | none => 0 }

end Verif.Model
