import Verif.Proofs.TestUtil
import Verif.Proofs.Physics8
import Verif.Proofs.Racket2
import Mathlib.Data.List.Duplicate
import Mathlib.Data.List.NodupEquivFin
/-! # The sign of the squares of the random vectors, and what a random motor satisfies -/
namespace Verif
open Model Spec Model.Factory Props Model.TestUtil

variable {A : Alg} {R : Type} [Field R] [LinearOrder R] [IsStrictOrderedRing R]

omit [LinearOrder R] [IsStrictOrderedRing R] in
theorem metric_get (i : Fin A.n) : metric A R i = ((A.desc.sig.get i : ℤ) : R) := by
  rw [metric]
  congr 1
  rw [List.getD_eq_getElem?_getD, List.getElem?_eq_getElem i.2]
  rfl

theorem metric_le_one (hA : WfAlg A) (i : Fin A.n) : metric A R i ≤ 1 := by
  rw [metric_get]
  rcases hA.sig _ (List.get_mem A.desc.sig i) with e | e | e <;> rw [e] <;> simp

theorem metric_nonneg (hA : WfAlg A) {i : Fin A.n} (h : A.desc.sig.get i ≠ -1) : 0 ≤ metric A R i := by
  rw [metric_get]
  rcases hA.sig _ (List.get_mem A.desc.sig i) with e | e | e
  · rw [e]; simp
  · exact absurd e h
  · rw [e]; simp

theorem dot_nonneg (hA : WfAlg A) (h : (-1 : ℤ) ∉ A.desc.sig) (u : Fin A.n → R) : 0 ≤ dot A u u := by
  refine Finset.sum_nonneg fun i _ => ?_
  rw [mul_assoc]
  exact mul_nonneg (metric_nonneg hA fun e => h (e ▸ List.get_mem A.desc.sig i)) (mul_self_nonneg _)

/-- With one negative and some positive basis vector, inverting the coefficients of a vector that squares to a negative number makes the square positive. -/
theorem dot_inverted (hA : WfAlg A) (h1 : A.desc.sig.count (-1) = 1) (h2 : 1 ≤ A.desc.sig.count 1) {u : Fin A.n → R} (hu : ∀ i, u i ≠ 0) (h : dot A u u < 0) :
    0 ≤ dot A (fun i => 1 / u i) fun i => 1 / u i := by
  obtain ⟨k, hk⟩ : ∃ k : Fin A.n, A.desc.sig.get k = -1 := List.mem_iff_get.1 (List.count_pos_iff.1 (show 0 < A.desc.sig.count (-1) by omega))
  obtain ⟨l, hl⟩ : ∃ k : Fin A.n, A.desc.sig.get k = 1 := List.mem_iff_get.1 (List.count_pos_iff.1 (show 0 < A.desc.sig.count 1 by omega))
  have uniq : ∀ i : Fin A.n, i ≠ k → 0 ≤ metric A R i := by
    intro i hi
    refine metric_nonneg hA fun e => ?_
    have : (A.desc.sig).Duplicate (-1) := by
      rw [List.duplicate_iff_exists_distinct_get]
      rcases lt_or_gt_of_ne hi with g | g
      · exact ⟨i, k, g, e.symm, hk.symm⟩
      · exact ⟨k, i, g, hk.symm, e.symm⟩
    have := List.duplicate_iff_two_le_count.1 this
    omega
  have mk : metric A R k = -1 := by rw [metric_get (A := A) k, hk]; simp
  have ml : metric A R l = 1 := by rw [metric_get (A := A) l, hl]; simp
  have hlk : (l : Fin A.n) ≠ k := by
    rintro rfl
    rw [hk] at hl; cases hl
  have split : ∀ w : Fin A.n → R, w l * w l - w k * w k ≤ dot A w w := by
    intro w
    rw [dot, ← Finset.add_sum_erase Finset.univ _ (Finset.mem_univ (k : Fin A.n)), mk]
    have : metric A R l * w l * w l ≤ ∑ i ∈ Finset.univ.erase (k : Fin A.n), metric A R i * w i * w i :=
      Finset.single_le_sum (f := fun i : Fin A.n => metric A R i * w i * w i)
        (fun i hi => by rw [mul_assoc]; exact mul_nonneg (uniq i (Finset.ne_of_mem_erase hi)) (mul_self_nonneg _))
        (Finset.mem_erase.2 ⟨hlk, Finset.mem_univ _⟩)
    rw [ml] at this
    linarith
  refine le_trans ?_ (split _)
  have hlt : u l * u l < u k * u k := by have := split u; linarith
  have pl : 0 < u l * u l := mul_self_pos.2 (hu l)
  rw [sub_nonneg, div_mul_div_comm, div_mul_div_comm, one_mul]
  exact one_div_le_one_div_of_le pl hlt.le

/-- Where a basis vector is negative and its coordinate is large, the square is negative. -/
theorem dot_large {k : Fin A.n} (hk : A.desc.sig.get k = -1) {w : Fin A.n → R} (h1 : w k = (A.n + 1 : R)) (h2 : ∀ i ≠ k, metric A R i * w i * w i ≤ 1) :
    dot A w w < 0 := by
  rw [dot, ← Finset.add_sum_erase Finset.univ _ (Finset.mem_univ k), metric_get, hk, h1]
  have : ∑ i ∈ Finset.univ.erase k, metric A R i * w i * w i ≤ (Finset.univ.erase k).card • (1 : R) :=
    Finset.sum_le_card_nsmul _ _ _ fun i hi => h2 i (Finset.ne_of_mem_erase hi)
  have hc : ((Finset.univ.erase k).card : R) ≤ A.n := by
    have : (Finset.univ.erase k).card ≤ A.n := (Finset.card_le_univ _).trans (by simp)
    exact_mod_cast this
  rw [nsmul_eq_mul, mul_one] at this
  have hn : (0 : R) ≤ A.n := Nat.cast_nonneg _
  push_cast
  nlinarith

omit [LinearOrder R] [IsStrictOrderedRing R] in
theorem crd_ofFn (w : Fin A.n → R) : crd A (List.ofFn w) = w := by
  funext i
  rw [crd, List.getD_eq_getElem?_getD, List.getElem?_eq_getElem (by simp)]
  simp

/-- Otherwise some vector and the vector with the inverted coefficients both square to negative numbers. -/
theorem dot_negative (hA : WfAlg A) (h1 : 1 ≤ A.desc.sig.count (-1)) (h2 : 2 ≤ A.desc.sig.count (-1) ∨ A.desc.sig.count 1 = 0) :
    ∃ w : Fin A.n → R, (∀ i, w i ≠ 0) ∧ dot A w w < 0 ∧ dot A (fun i => 1 / w i) (fun i => 1 / w i) < 0 := by
  rcases h2 with h2 | h2
  · obtain ⟨k, l, hkl, hk, hl⟩ : ∃ (k l : Fin A.n) (_ : k < l), -1 = A.desc.sig.get k ∧ -1 = A.desc.sig.get l := List.duplicate_iff_exists_distinct_get.1 (List.duplicate_iff_two_le_count.2 h2)
    have hT : (0 : R) < A.n + 1 := by positivity
    have ml : metric A R l = -1 := by rw [metric_get (A := A) l, ← hl]; simp
    have mk : metric A R k = -1 := by rw [metric_get (A := A) k, ← hk]; simp
    have hne : (l : Fin A.n) ≠ k := ne_of_gt hkl
    refine ⟨fun i => if i = k then A.n + 1 else if i = l then 1 / (A.n + 1) else 1, ?_, ?_, ?_⟩
    · intro i
      dsimp only
      split_ifs
      · exact hT.ne'
      · exact one_div_ne_zero hT.ne'
      · exact one_ne_zero
    · refine dot_large (A := A) (k := k) hk.symm (if_pos rfl) fun i hi => ?_
      rw [if_neg hi]
      split_ifs with e
      · rw [e, ml, mul_assoc, neg_one_mul]
        exact le_trans (neg_nonpos.2 (mul_self_nonneg _)) zero_le_one
      · rw [mul_one, mul_one]; exact metric_le_one hA i
    · refine dot_large (A := A) (k := l) hl.symm (by dsimp only; rw [if_neg hne, if_pos rfl, one_div_one_div]) fun i hi => ?_
      dsimp only
      split_ifs with e
      · rw [e, mk, mul_assoc, neg_one_mul]
        exact le_trans (neg_nonpos.2 (mul_self_nonneg _)) zero_le_one
      · rw [div_one, mul_one, mul_one]; exact metric_le_one hA i
  · obtain ⟨k, hk⟩ : ∃ k : Fin A.n, A.desc.sig.get k = -1 := List.mem_iff_get.1 (List.count_pos_iff.1 (show 0 < A.desc.sig.count (-1) by omega))
    have key : dot A (fun _ => (1 : R)) (fun _ => 1) < 0 := by
      rw [dot]
      refine Finset.sum_neg' (fun i _ => ?_) ⟨(k : Fin A.n), Finset.mem_univ _, ?_⟩
      · rw [mul_one, mul_one, metric_get]
        rcases hA.sig _ (List.get_mem A.desc.sig i) with e | e | e
        · exact absurd (List.count_pos_iff.2 (e ▸ List.get_mem A.desc.sig i)) (by omega)
        · rw [e]; simp
        · rw [e]; simp
      · rw [mul_one, mul_one, metric_get (A := A) k, hk]; simp
    exact ⟨fun _ => 1, fun _ => one_ne_zero, key, by simpa using key⟩

/-- Products of vectors that square to one are unitary. -/
theorem prod_unit (vs : List (Fin A.n → R)) (h : ∀ v ∈ vs, dot A v v = 1) :
    (vs.map (vec A)).prod * CliffordAlgebra.reverse (vs.map (vec A)).prod = 1 ∧ CliffordAlgebra.reverse (vs.map (vec A)).prod * (vs.map (vec A)).prod = 1 := by
  induction vs with
  | nil => simp
  | cons v vs ih =>
    obtain ⟨i1, i2⟩ := ih fun w hw => h w (List.mem_cons_of_mem _ hw)
    have hv : vec A v * vec A v = 1 := by rw [vec_sq, h v List.mem_cons_self, one_smul]
    have hr : CliffordAlgebra.reverse (vec A v) = vec A v := CliffordAlgebra.reverse_ι _
    rw [List.map_cons, List.prod_cons, CliffordAlgebra.reverse.map_mul, hr]
    constructor
    · rw [mul_assoc, ← mul_assoc _ _ (vec A v), i1, one_mul, hv]
    · rw [mul_assoc, ← mul_assoc (vec A v), hv, one_mul, i2]

/-- Every element of a product of reflections is zero or a motor. -/
theorem Reflections.motor (hA : WfAlg A) {x : Cl A R} (h : Reflections A x) :
    x = 0 ∨ (x * CliffordAlgebra.reverse x = 1 ∧ CliffordAlgebra.reverse x * x = 1 ∧
      ∀ (k : Nat) (y : Cl A R), gradePart A R k y = y → gradePart A R k (x * y * CliffordAlgebra.reverse x) = x * y * CliffordAlgebra.reverse x) := by
  obtain ⟨vs, e, -, v2, v3, rfl⟩ := h
  obtain ⟨u1, u2⟩ := prod_unit vs v2
  have hv : ∀ (k : Nat) (y : Cl A R), gradePart A R k y = y → _ := fun k y hy => versor_sandwich hA vs k hy
  rcases v3 with rfl | rfl | rfl
  · left; simp
  · right
    simp only [one_smul]
    exact ⟨u1, u2, hv⟩
  · right
    simp only [neg_smul, one_smul, map_neg, neg_mul, mul_neg, neg_neg]
    exact ⟨u1, u2, hv⟩

/-- All numbers of a multivector satisfy a condition that zero satisfies if all coefficients do. -/
theorem all_coeff {z : MV R} (hz : WfMV A z) {p : R → Prop} (h0 : p 0) : (∀ v ∈ z.vals, p v) ↔ ∀ b, p (coef A R b (val A z)) := by
  constructor
  · intro h b
    rw [← coeff_eq hz]
    by_cases hb : b ∈ z.sub.blades
    · rw [coeff_idxOf hz hb, List.getD_eq_getElem?_getD]
      have hi : z.sub.blades.idxOf b < z.vals.length := by rw [hz.len]; exact List.idxOf_lt_length_of_mem hb
      rw [List.getElem?_eq_getElem hi]
      exact h _ (List.getElem_mem hi)
    · rw [coeff_notMem hb]; exact h0
  · intro h v hv
    obtain ⟨i, hi, rfl⟩ := List.getElem_of_mem hv
    have hi' : i < z.sub.blades.length := by rw [← hz.len]; exact hi
    have := h z.sub.blades[i]
    rw [← coeff_eq hz, coeff_idxOf hz (List.getElem_mem hi'), hz.sub.nodup.idxOf_getElem i hi', List.getD_eq_getElem?_getD, List.getElem?_eq_getElem hi] at this
    exact this

end Verif
