import Mathlib.Data.List.Defs
/-!
# Model of `numga/dynamic_dispatch.py` and of the operator cache in `numga/context.py`
-/
namespace Verif.Model

/-- `DynamicDispatch`, numga/dynamic_dispatch.py:10-13.  `K` are the tuples of attributes of the arguments, `F` the
implementations.  A condition may raise (`none`).  The cache lists the latest entry first. -/
structure Dispatch (K F : Type) where
  cache : List (K × F)
  options : List ((K → Option Bool) × F)

namespace Dispatch
variable {K F : Type} [DecidableEq K]

/-- A new dispatcher, numga/dynamic_dispatch.py:10-13. -/
def init : Dispatch K F := ⟨[], []⟩

/-- The loop in `match`, numga/dynamic_dispatch.py:19-23.  `none`: the exception at its end, or one raised by a condition. -/
def matchLoop (k : K) : List ((K → Option Bool) × F) → Option F
  | [] => none
  | (c, f) :: os =>
    match c k with
    | none => none
    | some true => some f
    | some false => matchLoop k os

/-- `__call__` up to running the implementation found, numga/dynamic_dispatch.py:25-31, with `match`, lines 18-23. -/
def call (d : Dispatch K F) (k : K) : Dispatch K F × Option F :=
  match d.cache.lookup k with
  | some f => (d, some f)
  | none =>
    match matchLoop k d.options with
    | some f => ({ d with cache := (k, f) :: d.cache }, some f)
    | none => (d, none)

/-- Python's `list.insert` (negative positions count from the end; positions beyond the ends are clamped). -/
def pyInsert {α : Type} (l : List α) (p : Int) (a : α) : List α :=
  let i := if p < 0 then (p + l.length).toNat else p.toNat
  l.take i ++ a :: l.drop i

/-- `register`, numga/dynamic_dispatch.py:40-47 (the position is determined just before the insertion, as with decorators). -/
def register (d : Dispatch K F) (c : K → Option Bool) (f : F) (position : Option Int) : Dispatch K F :=
  { d with options := pyInsert d.options (position.getD d.options.length) (c, f) }

/-- What can happen to a dispatcher. -/
inductive Event (K F : Type) where
  | register (c : K → Option Bool) (f : F) (position : Option Int)
  | call (k : K)

/-- The state after one event. -/
def step (d : Dispatch K F) : Event K F → Dispatch K F
  | .register c f p => d.register c f p
  | .call k => (d.call k).1

/-- The state after a history, numga/dynamic_dispatch.py:10-47. -/
def run (h : List (Event K F)) : Dispatch K F := h.foldl step init

end Dispatch

/-- A concrete operator: its class and the abstract operator it wraps, numga/context.py:31-32. -/
structure ConcreteOp (T Op : Type) where
  otype : T
  op : Op

/-- The context with its `ConcreteOperatorFactory`, numga/context.py:27-29,58-66.  Objects are addresses in `objects`. -/
structure OpCache (N T Op : Type) where
  otype : T
  cache : List ((N × String) × Nat)
  objects : List (ConcreteOp T Op)

namespace OpCache
variable {N T Op : Type} [DecidableEq N]

/-- A new context, numga/context.py:58-66. -/
def init (t : T) : OpCache N T Op := ⟨t, [], []⟩

/-- `func` in `ConcreteOperatorFactory.__getattr__`, numga/context.py:39-51.  `N` are the pairs of operator name and
arguments, `str` is `str(otype)`, `build` the abstract factory (`none`: it raises), `hashable` whether the arguments can
be keys of a dict: if not, the lookup fails (bare `except`) and the later assignment raises.  The result is an address. -/
def call (str : T → String) (hashable : N → Bool) (build : N → Option Op) (s : OpCache N T Op) (n : N) : OpCache N T Op × Option Nat :=
  let hit := if hashable n then s.cache.lookup (n, str s.otype) else none
  match hit with
  | some a => (s, some a)
  | none =>
    match build n with
    | none => (s, none)
    | some op =>
      if hashable n then
        ({ s with cache := ((n, str s.otype), s.objects.length) :: s.cache, objects := s.objects ++ [⟨s.otype, op⟩] }, some s.objects.length)
      else (s, none)

/-- What can happen to a context: assigning the attribute `otype`, or creating an operator. -/
inductive Event (N T : Type) where
  | setType (t : T)
  | call (n : N)

/-- The state after one event, numga/context.py:39-51,62. -/
def step (str : T → String) (hashable : N → Bool) (build : N → Option Op) (s : OpCache N T Op) : Event N T → OpCache N T Op
  | .setType t => { s with otype := t }
  | .call n => (s.call str hashable build n).1

/-- The state after a history, numga/context.py:27-66. -/
def run (str : T → String) (hashable : N → Bool) (build : N → Option Op) (t : T) (h : List (Event N T)) : OpCache N T Op :=
  h.foldl (step str hashable build) (init t)

end OpCache
end Verif.Model
