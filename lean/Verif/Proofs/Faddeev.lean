import Mathlib.LinearAlgebra.Matrix.Charpoly.Coeff
import Mathlib.LinearAlgebra.Matrix.Adjugate
import Mathlib.RingTheory.MatrixPolynomialAlgebra
import Mathlib.Algebra.Polynomial.Derivative
import Mathlib.Algebra.CharZero.Defs
/-! The Faddeev-LeVerrier recursion for matrices. -/
namespace Verif.Faddeev
open Matrix Polynomial

section ring
variable {F : Type*} [CommRing F] {ι : Type*} [Fintype ι] [DecidableEq ι]

theorem derivative_det (M : Matrix ι ι F[X]) :
    derivative M.det = ∑ i, (M.updateCol i fun k => derivative (M k i)).det := by
  simp only [det_apply]
  rw [derivative_sum, Finset.sum_comm]
  apply Finset.sum_congr rfl
  intro σ _
  rw [Polynomial.derivative_smul, derivative_prod_finset, Finset.smul_sum]
  apply Finset.sum_congr rfl
  intro i _
  congr 1
  rw [← Finset.mul_prod_erase Finset.univ (fun j => (M.updateCol i fun k => derivative (M k i)) (σ j) j) (Finset.mem_univ i), mul_comm]
  congr 1
  · simp
  · apply Finset.prod_congr rfl
    intro j hj
    rw [Finset.mem_erase] at hj
    rw [updateCol_ne hj.1]

theorem derivative_charpoly (A : Matrix ι ι F) : derivative A.charpoly = trace (adjugate (charmatrix A)) := by
  rw [charpoly, derivative_det, trace]
  apply Finset.sum_congr rfl
  intro i _
  have h : (fun k => derivative (A.charmatrix k i)) = Pi.single i 1 := by
    ext1 k
    by_cases hk : k = i
    · subst hk; simp
    · simp [hk, charmatrix_apply_ne]
  rw [h, ← cramer_apply, diag_apply, ← transpose_apply (adjugate A.charmatrix) i i, adjugate_transpose, adjugate_def,
    of_apply, transpose_transpose]

/-- Matrix coefficient `j` of the adjugate of `X - A`. -/
noncomputable def G (A : Matrix ι ι F) (j : ℕ) : Matrix ι ι F := (matPolyEquiv (adjugate (charmatrix A))).coeff j

theorem poly_eq (A : Matrix ι ι F) :
    (X - C A) * matPolyEquiv (adjugate (charmatrix A)) = A.charpoly.map (algebraMap F (Matrix ι ι F)) := by
  rw [← matPolyEquiv_charmatrix, ← map_mul, mul_adjugate, matPolyEquiv_smul_one, charpoly]

theorem G_succ (A : Matrix ι ι F) (j : ℕ) : G A j = A * G A (j + 1) + A.charpoly.coeff (j + 1) • 1 := by
  have h := congrArg (fun p => coeff p (j + 1)) (poly_eq A)
  simp only [sub_mul, coeff_sub, coeff_X_mul, coeff_C_mul, coeff_map, Algebra.algebraMap_eq_smul_one] at h
  rw [G, G, ← h]
  abel

theorem G_zero (A : Matrix ι ι F) : A * G A 0 = -(A.charpoly.coeff 0 • 1) := by
  have h := congrArg (fun p => coeff p 0) (poly_eq A)
  simp only [sub_mul, coeff_sub, coeff_X_mul_zero, coeff_C_mul, coeff_map, Algebra.algebraMap_eq_smul_one, zero_sub] at h
  rw [G, ← h, neg_neg]

theorem G_large [Nontrivial F] (A : Matrix ι ι F) (j : ℕ) (h : Fintype.card ι ≤ j) : G A j = 0 := by
  by_contra hj
  have key : ∀ k, Fintype.card ι ≤ k → G A k ≠ 0 → G A (k + 1) ≠ 0 := by
    intro k hk h1 h2
    apply h1
    rw [G_succ, h2, coeff_eq_zero_of_natDegree_lt (by rw [charpoly_natDegree_eq_dim]; omega)]
    simp
  have all : ∀ k, G A (j + k) ≠ 0 := by
    intro k
    induction k with
    | zero => exact hj
    | succ k ih => exact key (j + k) (Nat.le_add_right_of_le h) ih
  apply all ((matPolyEquiv (adjugate (charmatrix A))).natDegree + 1)
  exact coeff_eq_zero_of_natDegree_lt (by omega)

theorem trace_G (A : Matrix ι ι F) (j : ℕ) : trace (G A j) = A.charpoly.coeff (j + 1) * (j + 1) := by
  rw [← coeff_derivative, derivative_charpoly, trace, trace, finsetSum_coeff]
  apply Finset.sum_congr rfl
  intro i _
  rw [diag_apply, diag_apply, G, matPolyEquiv_coeff_apply]

end ring

variable {F : Type*} [Field F] [CharZero F] {ι : Type*} [Fintype ι] [DecidableEq ι]

/-- The Faddeev-LeVerrier recursion. -/
noncomputable def fl (A : Matrix ι ι F) : ℕ → Matrix ι ι F
  | 0 => A
  | k + 1 => A * (fl A k - (trace (fl A k) / ((k : F) + 1)) • 1)

theorem fl_eq (A : Matrix ι ι F) (k : ℕ) (hk : k < Fintype.card ι) : fl A k = A * G A (Fintype.card ι - 1 - k) := by
  induction k with
  | zero =>
    have h : G A (Fintype.card ι - 1) = 1 := by
      rw [G_succ, show Fintype.card ι - 1 + 1 = Fintype.card ι by omega, G_large A _ le_rfl, mul_zero, zero_add]
      have := charpoly_monic A
      rw [Monic, leadingCoeff, charpoly_natDegree_eq_dim] at this
      rw [this, one_smul]
    rw [fl, Nat.sub_zero, h, mul_one]
  | succ k ih =>
    have ih := ih (by omega)
    obtain ⟨j, hj⟩ : ∃ j, Fintype.card ι - 1 - k = j + 1 := ⟨Fintype.card ι - 1 - k - 1, by omega⟩
    rw [show Fintype.card ι - 1 - (k + 1) = j by omega, fl, ih, hj]
    congr 1
    have h1 := G_succ A j
    have h2 : trace (A * G A (j + 1)) = -((k : F) + 1) * A.charpoly.coeff (j + 1) := by
      have h3 := congrArg trace h1
      rw [trace_G, trace_add, trace_smul, trace_one, smul_eq_mul] at h3
      have h4 : (Fintype.card ι : F) = j + 1 + k + 1 := by
        have : Fintype.card ι = j + 1 + k + 1 := by omega
        rw [this]; push_cast; ring
      rw [h4] at h3
      linear_combination -h3
    rw [h1, h2]
    have : (k : F) + 1 ≠ 0 := Nat.cast_add_one_ne_zero k
    rw [neg_mul, neg_div, mul_div_cancel_left₀ _ this, neg_smul, sub_neg_eq_add]

/-- The last matrix of the recursion is a multiple of the identity. -/
theorem fl_last (A : Matrix ι ι F) (h : 0 < Fintype.card ι) :
    fl A (Fintype.card ι - 1) = ((-1) ^ (Fintype.card ι - 1) * A.det) • 1 := by
  rw [fl_eq A _ (by omega), Nat.sub_self, G_zero, ← neg_smul, det_eq_sign_charpoly_coeff]
  congr 1
  obtain ⟨n, hn⟩ : ∃ n, Fintype.card ι = n + 1 := ⟨Fintype.card ι - 1, by omega⟩
  rw [hn, Nat.add_sub_cancel, pow_succ, ← mul_assoc, ← mul_assoc, ← mul_pow]
  simp

end Verif.Faddeev
