/-!
# Model of `numga/algebra/bitops.py`

Blades are unsigned integers of a fixed numpy dtype; a value of a dtype of `itemsize` bytes is modelled as a
natural number below `256 ^ itemsize`. Array functions are modelled per element (all of them are element-wise).
-/
namespace Verif.Model

/-- `parity_to_sign`, numga/algebra/bitops.py:11-15.  `%` of numpy with modulus 2 is the non-negative remainder. -/
def parityToSign (p : Int) : Int := 1 - (p % 2) * 2

/-- `minimal_uint_type`, numga/algebra/bitops.py:18-22.  Returns `(nbytes, itemsize of the dtype)`;
`none` is the `KeyError` of the dict lookup.  `(bits - 1) // 8` is Python floor division. -/
def minimalUintType (bits : Nat) : Option (Nat × Nat) :=
  let bytes : Int := ((bits : Int) - 1) / 8 + 1
  if bytes = 1 then some (1, 1)
  else if bytes = 2 then some (2, 2)
  else if bytes = 3 then some (3, 4)
  else if bytes = 4 then some (4, 4)
  else none

/-- `bit_pack`, numga/algebra/bitops.py:25-27: join the reversed 0/1 digits and parse in base 2.
`none` is the `ValueError` of `int('', 2)`. -/
def bitPack (bits : List Nat) : Option Nat :=
  if bits = [] then none else some (bits.reverse.foldl (fun acc b => 2 * acc + b) 0)

/-- `bit_count_radix`, numga/algebra/bitops.py:30: row sums of `np.unpackbits` of the 256 bytes
(most significant bit first). -/
def bitCountRadix : List Nat :=
  (List.range 256).map fun k => ((List.range 8).map fun j => (k >>> (7 - j)) % 2).sum

/-- The bytes of a stored element, numga/algebra/bitops.py:44-51 (`strides=(1,)+b.strides`,
`shape=(itemsize,)+b.shape`).  Little-endian order; the order does not matter as the bytes are only summed over. -/
def bytesOf (itemsize b : Nat) : List Nat :=
  (List.range itemsize).map fun i => (b >>> (8 * i)) % 256

/-- `bit_count`, numga/algebra/bitops.py:31-52.  The `sum` adds `uint8` arrays, hence the wrap at 256. -/
def bitCount (itemsize b : Nat) : Nat :=
  (bytesOf itemsize b).foldl (fun acc byte => (acc + bitCountRadix.getD byte 0) % 256) 0

/-- `biterator(elements, stop)` with `skip=0`, numga/algebra/bitops.py:55-61, for one element. -/
def biterator : Nat → Nat → List Nat
  | _, 0 => []
  | e, stop + 1 => (e &&& 1) :: biterator (e >>> 1) stop

end Verif.Model
