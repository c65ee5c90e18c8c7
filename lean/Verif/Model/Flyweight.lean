import Verif.Model.Subspace
/-!
# Model of `numga/flyweight.py` as used by `SubSpaceFactory.from_blades`

Objects are addresses; the pool maps a key (the bytes of the ordered blade array) to an object, and the heap maps
an address to the blades stored in that object.  Objects are never freed (the pool keeps them alive).
-/
namespace Verif.Model

/-- State of one `SubSpaceFactory`: the pool (`flyweight_pool`, numga/flyweight.py:14-15) and the objects
constructed so far; the address of an object is its position in `objects`. -/
structure Pool where
  entries : List (List Nat × Nat)
  objects : List (List Nat)

/-- A new factory, numga/flyweight.py:14-15. -/
def Pool.init : Pool := { entries := [], objects := [] }

/-- Serialisation of the array, `blades.tobytes()`, numga/subspace/factory.py:86: little-endian bytes of all elements. -/
def Alg.toBytes (A : Alg) (bs : List Nat) : List Nat := bs.flatMap (bytesOf A.itemsize)

/-- `from_blades`, numga/subspace/factory.py:84-88, with `factory_construct`, numga/flyweight.py:16-22:
look the key up, otherwise construct (uniqueness assertion of numga/subspace/subspace.py:25) and register.
The result is the address of the object, or `none` for the `AssertionError` (state unchanged). -/
def Alg.construct (A : Alg) (p : Pool) (l : List Nat) : Pool × Option Nat :=
  let bs := A.orderBlades l
  let key := A.toBytes bs
  match p.entries.find? (·.1 == key) with
  | some e => (p, some e.2)
  | none =>
    if bs.Nodup then
      ({ entries := p.entries ++ [(key, p.objects.length)], objects := p.objects ++ [bs] }, some p.objects.length)
    else (p, none)

/-- A whole history of `from_blades` calls; returns the final state and the results of all calls. -/
def Alg.constructAll (A : Alg) : Pool → List (List Nat) → Pool × List (Option Nat)
  | p, [] => (p, [])
  | p, l :: ls =>
    let r := A.construct p l
    let rs := A.constructAll r.1 ls
    (rs.1, r.2 :: rs.2)

end Verif.Model
