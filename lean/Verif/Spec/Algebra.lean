import Verif.Model.Algebra
import Mathlib.Data.Finset.Card
import Mathlib.Order.Interval.Finset.Nat
/-! # Specification vocabulary for algebras and blades -/
namespace Verif
open Model

/-- Well-formed algebra: what every public constructor of `Algebra` produces
(proved in `Verif.Props.Algebra`: `wf_fromStr`, `wf_fromPqr`, `wf_mul`). -/
structure WfAlg (A : Alg) : Prop where
  pos : 1 ≤ A.n
  le32 : A.n ≤ 32
  le_width : A.n ≤ A.width
  item_le : A.itemsize ≤ 4
  sig : ∀ s ∈ A.desc.sig, s = 1 ∨ s = -1 ∨ s = 0
  names : A.desc.names.length = A.desc.sig.length

namespace Spec

/-- The set of basis vectors (bit positions below `k`) of a bit pattern. -/
def bitSet (k b : Nat) : Finset Nat := (Finset.range k).filter fun i => b.testBit i = true

/-- Concrete algebras used as examples beside the theorems. -/
def pga3 : Alg := { desc := { names := ["w".toList, "x".toList, "y".toList, "z".toList], sig := [0, 1, 1, 1] },
                    nbytes := 1, itemsize := 1 }
/-- Space-time signature, as an example. -/
def sta : Alg := { desc := { names := ["t".toList, "x".toList, "y".toList, "z".toList], sig := [1, -1, -1, -1] },
                   nbytes := 1, itemsize := 1 }
end Spec

theorem wf_pga3 : WfAlg Spec.pga3 := by
  constructor <;> decide
theorem wf_sta : WfAlg Spec.sta := by
  constructor <;> decide

end Verif
