import Verif.Spec.Multivector
import Verif.Model.Inverse
/-! # Right hand sides that act on the coefficients -/
namespace Verif.Spec
open Model
variable {R : Type}

/-- The multivector stored on `S` with the given coefficients. -/
def mvOf (S : SubSpace) (u : Fin S.blades.length → R) : MV R := ⟨S, List.ofFn u⟩

/-- `f` maps multivectors stored on `S` to multivectors stored on `S`, and acts on the coefficients as `F` does. -/
def ActsAs (S : SubSpace) (f : MV R → Except Fail (MV R)) (F : (Fin S.blades.length → R) → Fin S.blades.length → R) : Prop :=
  ∀ u, f (mvOf S u) = .ok (mvOf S (F u))

end Verif.Spec
