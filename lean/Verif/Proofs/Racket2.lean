import Verif.Proofs.Racket
import Verif.Model.Racket
/-! # Bodies with principal axes -/
namespace Verif
open Model Spec Props

namespace Spec.Euc
variable {A : Alg} (h : Euc A) {R : Type} [Field R] [DecidableEq R]

/-- Every component times its principal moment. -/
noncomputable def weigh (A : Alg) {R : Type} [Field R] (S : Fin A.n → R) (x : Cl A R) : Cl A R :=
  ∑ b ∈ Finset.range (2 ^ A.n), (moment S b * coef A R b x) • blade A R b

omit [DecidableEq R] in
theorem coef_weigh (S : Fin A.n → R) (x : Cl A R) {b : Nat} (hb : b < 2 ^ A.n) : coef A R b (weigh A S x) = moment S b * coef A R b x := by
  rw [weigh, map_sum, Finset.sum_eq_single b]
  · rw [map_smul, coef_blade A R hb, if_pos rfl, smul_eq_mul, mul_one]
  · intro c hc hcb
    rw [map_smul, coef_blade A R (Finset.mem_range.1 hc), if_neg hcb.symm, smul_zero]
  · intro hb'; exact absurd (Finset.mem_range.2 hb) hb'

omit [DecidableEq R] in
theorem coef_ext {x y : Cl A R} (hc : ∀ b < 2 ^ A.n, coef A R b x = coef A R b y) : x = y := by
  rw [sum_coef A R x, sum_coef A R y]
  exact Finset.sum_congr rfl fun b hb => by rw [hc b (Finset.mem_range.1 hb)]

omit [DecidableEq R] in
theorem coef_gradePart (k : Nat) (x : Cl A R) {b : Nat} (hb : b < 2 ^ A.n) : coef A R b (gradePart A R k x) = if popcount b = k then coef A R b x else 0 := by
  have : (coef A R b).comp (gradePart A R k) = if popcount b = k then coef A R b else 0 := by
    apply lin_ext
    intro c hc
    rw [LinearMap.comp_apply, gradePart_blade _ hc]
    by_cases hcb : b = c
    · subst hcb; split_ifs <;> simp
    · split_ifs <;> simp [coef_blade A R hc, hcb]
  have e := LinearMap.congr_fun this x
  rw [LinearMap.comp_apply] at e
  rw [e]
  split_ifs <;> simp

omit [DecidableEq R] in
theorem weigh_grade (S : Fin A.n → R) {x : Cl A R} {k : Nat} (hx : gradePart A R k x = x) : gradePart A R k (weigh A S x) = weigh A S x := by
  refine coef_ext fun b hb => ?_
  have e := congrArg (coef A R b) hx
  rw [coef_gradePart _ _ hb] at e ⊢
  rw [coef_weigh S x hb]
  split_ifs at e ⊢
  · rfl
  · rw [← e, mul_zero]

include h

omit [DecidableEq R] in
theorem sign (b : Nat) : lineSign A R b = 1 := by
  have h1 := h.nonNeg.pc h.wf A.negatives
  rw [Nat.and_self] at h1
  rw [lineSign, h1, h.nonNeg.pc h.wf]
  simp

/-- The inertia map of a body with principal axes. -/
theorem inertia_diag {b : Body R} {B L : SubSpace} {ws : List (Fin A.n → R)} (hl : Live A b (ws.map fun w => rhMap A R (vec A w)) B L) {S : Fin A.n → R}
    (hS : ∀ i k, (ws.map fun w => w i * w k).sum = if i = k then S i else 0) {x : Cl A R} (hx : Within A B x) :
    opMap A b.inertia B L x = rhMap A R (weigh A S x) := by
  have gx := within_grade hl.spaceB hx
  have gw := weigh_grade S gx
  rw [← sub_eq_zero]
  refine pairing_ext h.wf h.two ?_ fun y hy => ?_
  · rw [map_sub, within_grade (k := A.n - 2) (hl.spaceL.congr fun c _ => by have := h.two; omega) (hl.inL x), rh_grade h.wf (k := 2) (by have := h.two; omega), gw]
  · rw [map_sub, LinearMap.sub_apply, hl.pairing h.wf hx hy, h.principal ws hS gx hy, dual_pairing h.wf gw hy, ← sub_smul, sub_eq_zero.2, zero_smul]
    refine Finset.sum_congr rfl fun b hb => ?_
    rw [h.sign, coef_weigh S x (Finset.mem_range.1 hb)]
    ring

/-- The commutator with the dual of a bivector. -/
theorem comm_dual (h2 : (2 : R) ≠ 0) {x y : Cl A R} (hx : gradePart A R 2 x = x) (hy : gradePart A R 2 y = y) :
    comm A R (rhMap A R x) y = rhMap A R (comm A R x y) := by
  have hc : gradePart A R 2 (comm A R x y) = comm A R x y := by rw [comm_gradePart h.wf hx, hy]
  rw [h.rh_eq, h.rh_eq, grade2_reverse h.wf hx, grade2_reverse h.wf hc]
  have hH : Halving A R := halving h2
  have e := comm_mul h.wf hH y (-x) (blade A R A.pss)
  rw [comm_pss h.wf hy, mul_zero, add_zero] at e
  rw [comm_swap h.wf, e, map_neg, comm_swap h.wf y x]
  simp

end Spec.Euc
end Verif
