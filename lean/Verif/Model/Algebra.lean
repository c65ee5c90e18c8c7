import Verif.Model.Description
/-!
# Model of `numga/algebra/algebra.py`

All array arguments are modelled per element, outer products per pair of elements.
-/
namespace Verif.Model

/-- `Algebra`, numga/algebra/algebra.py:10-29: a description plus the dtype chosen for blades. -/
structure Alg where
  desc : Description
  nbytes : Nat
  itemsize : Nat
deriving DecidableEq, Repr

/-- `Algebra.__init__`, numga/algebra/algebra.py:19-29, for a ready description.  `none`: no dtype. -/
def Alg.ofDesc (d : Description) : Option Alg :=
  (minimalUintType d.nDimensions).map fun t => { desc := d, nbytes := t.1, itemsize := t.2 }

/-- `Algebra.from_str`, numga/algebra/algebra.py:31-33. -/
def Alg.fromStr (s : List Char) : Option Alg := (Description.fromStr s).bind Alg.ofDesc

/-- `Algebra.from_pqr`, numga/algebra/algebra.py:35-37. -/
def Alg.fromPqr (p q r : Nat) : Option Alg := (Description.fromPqr p q r).bind Alg.ofDesc

/-- `Algebra.__mul__`, numga/algebra/algebra.py:51-52. -/
def Alg.mul (A B : Alg) : Option Alg := (A.desc.mul B.desc).bind Alg.ofDesc

/-- `n_dimensions`, numga/algebra/algebra.py:39-41. -/
def Alg.n (A : Alg) : Nat := A.desc.nDimensions

/-- Number of bits of `blade_dtype`, numga/algebra/algebra.py:29. -/
def Alg.width (A : Alg) : Nat := 8 * A.itemsize

/-- `.astype(self.blade_dtype)` and other casts to the blade dtype: keep the low bits. -/
def Alg.toDtype (A : Alg) (b : Nat) : Nat := b % 2 ^ A.width

/-- `negatives`, numga/algebra/algebra.py:54-56.  (`bit_pack` cannot fail for a nonempty signature.) -/
def Alg.negatives (A : Alg) : Nat := A.toDtype ((bitPack A.desc.negatives).getD 0)
/-- `positives`, numga/algebra/algebra.py:57-59. -/
def Alg.positives (A : Alg) : Nat := A.toDtype ((bitPack A.desc.positives).getD 0)
/-- `zeros`, numga/algebra/algebra.py:60-62. -/
def Alg.zeros (A : Alg) : Nat := A.toDtype ((bitPack A.desc.zeros).getD 0)

/-- `bit_dot`, numga/algebra/algebra.py:76-78. -/
def Alg.bitDot (A : Alg) (a b : Nat) : Nat := bitCount A.itemsize (a &&& b)

/-- `grade`, numga/algebra/algebra.py:80-93. -/
def Alg.grade (A : Alg) (a : Nat) : Nat := bitCount A.itemsize a

/-- `downshift` inside `cayley`, numga/algebra/algebra.py:118-121: `k` successive `np.left_shift(e, 1)` in the
blade dtype (bits shifted out of the dtype are lost). -/
def Alg.downshift (A : Alg) : Nat → Nat → List Nat
  | 0, _ => []
  | k + 1, e =>
    let e' := A.toDtype (e <<< 1)
    e' :: A.downshift k e'

/-- Cast of a `uint8` value to `int8` (two's complement). -/
def toInt8 (x : Nat) : Int := Int.bmod (x : Int) 256

/-- Swap count of `cayley`, numga/algebra/algebra.py:117-126: the `sum` adds `uint8` arrays (wraps at 256), and
the result is cast to `int8`. -/
def Alg.swaps (A : Alg) (a b : Nat) : Int :=
  toInt8 ((A.downshift (A.n - 1) b).foldl (fun acc s => (acc + A.bitDot a s) % 256) 0)

/-- `cayley`, numga/algebra/algebra.py:95-126. -/
def Alg.cayley (A : Alg) (a b : Nat) : Nat × Int := (a ^^^ b, A.swaps a b)

/-- `involute`, numga/algebra/algebra.py:128-141. -/
def Alg.involuteSign (A : Alg) (a : Nat) : Int := parityToSign (A.grade a)

/-- `reverse`, numga/algebra/algebra.py:143-158. -/
def Alg.reverseSign (A : Alg) (a : Nat) : Int := parityToSign ((A.grade a / 2 : Nat) : Int)

/-- `product`, numga/algebra/algebra.py:160-187, for one pair of blades: target blade and sign. -/
def Alg.product (A : Alg) (a b : Nat) : Nat × Int :=
  let doubles := a &&& b
  let negatives := A.bitDot doubles A.negatives
  let zeros := A.bitDot doubles A.zeros
  let cs := A.cayley a b
  (cs.1, parityToSign ((negatives : Int) + cs.2) * (if zeros = 0 then 1 else 0))

/-- Bit pattern of the pseudoscalar, the only blade of grade `n`.  `pseudoscalar()` of
numga/subspace/factory.py:114-115 is proved to have exactly this blade (`mem_pseudoscalar`). -/
def Alg.pss (A : Alg) : Nat := 2 ^ A.n - 1

/-- `complement`, numga/algebra/algebra.py:71-74, for one blade. -/
def Alg.complement (A : Alg) (a : Nat) : Nat := a ^^^ A.pss

/-- `pseudo_scalar_squared`, numga/algebra/algebra.py:64-69. -/
def Alg.pseudoScalarSquared (A : Alg) : Int := (A.product A.pss A.pss).2

end Verif.Model
