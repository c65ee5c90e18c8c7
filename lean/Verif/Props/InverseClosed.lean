import Verif.Proofs.InverseClosed
import Verif.Props.Inverse
/-! # C89: inverses stay in subalgebras -/
namespace Verif.Props
open Model Spec

variable {A : Alg} {R : Type} [Field R] [DecidableEq R]

/-- C89: the inverse of a multivector stored in a subspace that is closed under the product, as `is_subalgebra` decides, and
contains the scalars is stored in that subspace. -/
theorem C89_inverse (hA : WfAlg A) {U : SubSpace} (hU : WfSub A U) (hc : U.isSubalgebra A = some true) (h0 : 0 ∈ U.blades) (fuel : Nat)
    {x y : MV R} (hx : WfMV A x) (hs : SubOf x.sub U) (h : x.inverse A fuel = .ok y) : WfMV A y ∧ SubOf y.sub U := by
  obtain ⟨r, r1, r2⟩ := C20_is_subalgebra hA hU
  exact inverse_in hA hU (r2.1 (by simpa using r1.symm.trans hc)) h0 fuel ⟨hx, hs⟩ h

/-- C89: so is the quotient of two multivectors stored in that subspace. -/
theorem C89_divide (hA : WfAlg A) {U : SubSpace} (hU : WfSub A U) (hc : U.isSubalgebra A = some true) (h0 : 0 ∈ U.blades) (fuel : Nat)
    {x y z : MV R} (hx : WfMV A x) (hs : SubOf x.sub U) (hy : WfMV A y) (ht : SubOf y.sub U) (h : x.truediv A fuel (.mv y) = .ok z) :
    WfMV A z ∧ SubOf z.sub U := by
  obtain ⟨r, r1, r2⟩ := C20_is_subalgebra hA hU
  have hcl := r2.1 (by simpa using r1.symm.trans hc)
  simp only [MV.truediv, MV.upcast, lift_some, bind, Except.bind] at h
  exact divideWith_in hA hU hcl ⟨hx, hs⟩ ⟨hy, ht⟩ (fun hi => inverse_in hA hU hcl h0 fuel ⟨hy, ht⟩ hi) h

/-- C89: in particular inverses and quotients of multivectors of even grade are of even grade. -/
theorem C89_even (hA : WfAlg A) (fuel : Nat) {x y z : MV R} (hx : WfMV A x) (hs : ∀ b ∈ x.sub.blades, popcount b % 2 = 0) :
    (x.inverse A fuel = .ok y → WfMV A y ∧ ∀ b ∈ y.sub.blades, popcount b % 2 = 0) ∧
    (WfMV A y → (∀ b ∈ y.sub.blades, popcount b % 2 = 0) → x.truediv A fuel (.mv y) = .ok z →
      WfMV A z ∧ ∀ b ∈ z.sub.blades, popcount b % 2 = 0) := by
  obtain ⟨U, _, u2, u3, u4, _⟩ := C57_even hA
  have h0 : 0 ∈ U.blades := (u3 0).2 ⟨Nat.two_pow_pos _, by decide⟩
  have key : ∀ {w : MV R}, WfMV A w → (∀ b ∈ w.sub.blades, popcount b % 2 = 0) → SubOf w.sub U :=
    fun hw he b hb => (u3 b).2 ⟨hw.sub.lt b hb, he b hb⟩
  constructor
  · intro h
    obtain ⟨h1, h2⟩ := C89_inverse hA u2 u4 h0 fuel hx (key hx hs) h
    exact ⟨h1, fun b hb => ((u3 b).1 (h2 b hb)).2⟩
  · intro hy he h
    obtain ⟨h1, h2⟩ := C89_divide hA u2 u4 h0 fuel hx (key hx hs) hy (key hy he) h
    exact ⟨h1, fun b hb => ((u3 b).1 (h2 b hb)).2⟩

/-- The subalgebra of the scalars and the pseudoscalar, and an inverse in it. -/
example : (⟨[0, 7]⟩ : SubSpace).isSubalgebra euc3 = some true ∧
    (⟨⟨[0, 7]⟩, [1, 2]⟩ : MV ℚ).inverse euc3 4 = .ok ⟨⟨[0, 7]⟩, [1 / 5, -2 / 5]⟩ ∧
    (⟨⟨[3, 5]⟩, [1, 2]⟩ : MV ℚ).truediv euc3 4 (.mv ⟨⟨[0, 3]⟩, [1, 1]⟩) = .ok ⟨⟨[0, 3, 5, 6]⟩, [1 / 2, 1 / 2, 1, -1]⟩ := by decide +kernel

end Verif.Props
