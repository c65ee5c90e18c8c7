import Verif.Model.Multivector
/-!
# Model of the arrays behind multivectors (numpy backend)

A buffer is a list of cells; an array refers to cells of one buffer (so that views share cells).  All batch axes are
flattened to one axis, so that an array consists of rows; the last axis enumerates the subspace.
-/
namespace Verif.Model
variable {R : Type} [Zero R]

/-- A numpy array: its buffer and the positions of its cells. -/
structure Arr where
  buf : Nat
  rows : List (List Nat)

/-- A multivector object, numga/multivector/multivector.py:10-33. -/
structure MVObj where
  sub : SubSpace
  arr : Arr

/-- All buffers, the arrays that the user holds, and the multivectors constructed so far. -/
structure World (R : Type) where
  bufs : List (List R)
  arrays : List Arr
  objs : List MVObj

/-- The contents of an array. -/
def World.read (w : World R) (a : Arr) : List (List R) := a.rows.map fun r => r.map fun p => (w.bufs.getD a.buf []).getD p 0

/-- Positions of consecutively stored rows of these lengths. -/
def layout : Nat → List Nat → List (List Nat)
  | _, [] => []
  | k, l :: ls => List.range' k l :: layout (k + l) ls

/-- A new array with these contents in a buffer of its own (`np.array`, `arr.copy()`, `np.zeros`). -/
def World.alloc (w : World R) (v : List (List R)) : World R × Arr :=
  ({ w with bufs := w.bufs ++ [v.flatten] }, ⟨w.bufs.length, layout 0 (v.map (·.length))⟩)

/-- Assignment to one cell of a buffer. -/
def World.write (w : World R) (b p : Nat) (v : R) : World R := { w with bufs := w.bufs.set b ((w.bufs.getD b []).set p v) }

/-- `arr[idx] = values`, with the index resolved to cells (row, column) and one value for each, assigned in order.
`none`: `IndexError`. -/
def World.assign (w : World R) (a : Arr) : List ((Nat × Nat) × R) → Option (World R)
  | [] => some w
  | ((r, c), v) :: l =>
    match a.rows[r]? with
    | none => none
    | some row =>
      match row[c]? with
      | none => none
      | some p => (w.write a.buf p v).assign a l

/-- `NumpyMultiVector.construct`, numga/backend/numpy/multivector.py:12-29, with `coerce_array`,
numga/backend/numpy/context.py:21-22: `np.asarray` returns the array itself, unless it has to `convert` it to the dtype
or memory order of the context. -/
def World.construct (w : World R) (a : Arr) (S : SubSpace) (convert : Bool) : Option (World R) :=
  let (w, a) := if convert then w.alloc (w.read a) else (w, a)
  if ∀ r ∈ a.rows, r.length = S.blades.length then some { w with objs := w.objs ++ [⟨S, a⟩] } else none

/-- What a program can do with arrays and multivectors. -/
inductive World.Event (R : Type) where
  /-- The user creates an array. -/
  | array (v : List (List R))
  /-- `context.multivector(values, subspace)`, numga/multivector/factory.py:81-89. -/
  | construct (i : Nat) (S : SubSpace) (convert : Bool)
  /-- The user takes the array of a multivector, `x.values`. -/
  | values (x : Nat)
  /-- `x[idx]` on the batch axes, numga/backend/numpy/multivector.py:30-31, which gives a view for slices. -/
  | view (x : Nat) (rows : List Nat)
  /-- `x.at[idx].set(values)`, numga/multivector/helper.py:1-23 and numga/multivector/multivector.py:54-56. -/
  | set (x : Nat) (l : List ((Nat × Nat) × R))
  /-- An operator applied to multivectors, numga/backend/numpy/operator.py:40-49,122-132: the result is written to a new array. -/
  | call (xs : List Nat) (S : SubSpace) (f : List (List (List R)) → List (List R))
  /-- The user assigns to a cell of an array they hold. -/
  | write (i : Nat) (l : List ((Nat × Nat) × R))

/-- One event; `none` if it raises. -/
def World.step (w : World R) : World.Event R → Option (World R)
  | .array v => let r := w.alloc v; some { r.1 with arrays := w.arrays ++ [r.2] }
  | .construct i S convert => do w.construct (← w.arrays[i]?) S convert
  | .values x => do let o ← w.objs[x]?; some { w with arrays := w.arrays ++ [o.arr] }
  | .view x rows => do
    let o ← w.objs[x]?
    let rs ← rows.mapM (o.arr.rows[·]?)
    w.construct ⟨o.arr.buf, rs⟩ o.sub false
  | .set x l => do
    let o ← w.objs[x]?
    let r := w.alloc (w.read o.arr)
    (← r.1.assign r.2 l).construct r.2 o.sub false
  | .call xs S f => do
    let os ← xs.mapM (w.objs[·]?)
    let r := w.alloc (f (os.map fun o => w.read o.arr))
    r.1.construct r.2 S false
  | .write i l => do w.assign (← w.arrays[i]?) l

/-- A whole history; events that raise leave the world unchanged. -/
def World.run (w : World R) (h : List (World.Event R)) : World R := h.foldl (fun w e => (w.step e).getD w) w

end Verif.Model
