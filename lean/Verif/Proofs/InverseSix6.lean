import Verif.Proofs.InverseSix3
import Verif.Proofs.InverseSix5
/-! # Evaluation of `inverse` in six dimensions: the calls -/
namespace Verif.Six
open Model

section
variable {A : Alg} {R : Type} [Field R] [DecidableEq R]

theorem inverse_rule {x : MV R} {rule : InvRule} (h : Dispatch.matchLoop x.sub (inverseOptions A) = some rule) (fuel : Nat) :
    x.inverse A (fuel + 1) = MV.runInverse A (MV.inverse A fuel) x rule := by
  rw [MV.inverse, h]

theorem run_negation {inv : MV R → Except Fail (MV R)} {x a b : MV R} (h1 : x.scalarNegation A = some a) (h2 : x.symmetricScalarNegation A = some b) :
    MV.runInverse A inv x .scalarNegation = MV.divideWith A inv a b := by
  rw [MV.runInverse, h1, h2]; rfl

theorem run_bivector {inv : MV R → Except Fail (MV R)} {x s i j y : MV R} (h1 : x.symmetricReverse A = some s) (h2 : inv s = .ok i) (h3 : i.neg = some j)
    (h4 : x.bivectorProduct A j = some y) : MV.runInverse A inv x .bivector = .ok y := by
  rw [MV.runInverse, h1]
  show (inv s >>= _) = _
  rw [h2]
  show (lift i.neg >>= _) = _
  rw [h3]
  show lift (x.bivectorProduct A j) = _
  rw [h4]; rfl

theorem divide_one {inv : MV R → Except Fail (MV R)} {a : MV R} (hs : A.scalar = some ⟨[0]⟩) (hl : a.vals.length = a.sub.blades.length) :
    MV.divideWith A inv a ⟨⟨[0]⟩, [1]⟩ = .ok a := by
  rw [MV.divideWith, hs]
  simp [MV.copy, MV.construct, hl, lift, MV.divValues, bind, Except.bind]

theorem divide_inverse {inv : MV R → Except Fail (MV R)} {a b i p : MV R} (hs : A.scalar = some ⟨[0]⟩) (hb : b.sub ≠ ⟨[0]⟩) (hi : inv b = .ok i) (hp : a.product A i = some p) :
    MV.divideWith A inv a b = .ok p := by
  rw [MV.divideWith, hs]
  simp [hb, hi, hp, lift, bind, Except.bind]

end

theorem t_inverse (fuel : Nat) : t6.inverse a6 (fuel + 1) = .ok ⟨⟨[0, 15]⟩, [1, -8]⟩ := by
  rw [inverse_rule (x := t6) t_rule fuel, run_negation t_negated t_value]
  exact divide_one scalar6 rfl

theorem t_sub : t6.sub ≠ ⟨[0]⟩ := by decide

theorem s_inverse (fuel : Nat) : s6.inverse a6 (fuel + 1 + 1) = .ok ⟨⟨[0, 15, 51, 60]⟩, [1, -6, 2, 2]⟩ := by
  rw [inverse_rule (x := s6) s_rule (fuel + 1), run_negation s_negated s_value]
  exact divide_inverse scalar6 t_sub (t_inverse fuel) s_product

theorem x_inverse (fuel : Nat) : x6.inverse a6 (fuel + 1 + 1 + 1) = .ok ⟨⟨[3, 12, 48]⟩, [1, 1, -1]⟩ := by
  rw [inverse_rule (x := x6) x_rule (fuel + 1 + 1)]
  exact run_bivector x_value (s_inverse fuel) s_neg y_value

end Verif.Six
