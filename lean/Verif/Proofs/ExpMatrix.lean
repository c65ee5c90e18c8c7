import Verif.Spec.Exp
import Verif.Proofs.Inverse
import Verif.Proofs.ExpBound
import Mathlib.Analysis.Matrix.Normed
import Mathlib.Analysis.Calculus.Deriv.Prod
import Mathlib.Analysis.Calculus.Deriv.Add
import Mathlib.Analysis.Calculus.Deriv.Mul
import Mathlib.Topology.Instances.Matrix
import Mathlib.Topology.UniformSpace.Matrix
/-! # The exponential of an element of a real Clifford algebra, by its matrix of left multiplication -/
namespace Verif.ExpMatrix
open Model Spec NormedSpace
open scoped Matrix.Norms.Operator

variable {A : Alg}

/-- The matrices of left multiplication. -/
abbrev Mat (A : Alg) := Matrix (Fin (2 ^ A.n)) (Fin (2 ^ A.n)) ℝ

/-- The matrix of left multiplication by `x`. -/
noncomputable def mat (A : Alg) : Cl A ℝ →ₐ[ℝ] Mat A := Algebra.leftMulMatrix (bladeBasis A ℝ)

/-- The index of the scalars. -/
def zero (A : Alg) : Fin (2 ^ A.n) := ⟨0, Nat.two_pow_pos _⟩

instance : Nonempty (Fin (2 ^ A.n)) := ⟨zero A⟩

theorem repr_eq (x : Cl A ℝ) (i : Fin (2 ^ A.n)) : (bladeBasis A ℝ).repr x i = coef A ℝ i x := by
  have h : (Finsupp.lapply i : _ →ₗ[ℝ] ℝ) ∘ₗ (bladeBasis A ℝ).repr.toLinearMap = coef A ℝ (i : Nat) := by
    apply (bladeBasis A ℝ).ext
    intro j
    simp only [LinearMap.comp_apply, LinearEquiv.coe_coe, Module.Basis.repr_self, Finsupp.lapply_apply]
    rw [bladeBasis_apply, coef_blade A ℝ j.2, Finsupp.single_apply]
    simp [Fin.ext_iff, eq_comm]
  exact congrArg (fun f : Cl A ℝ →ₗ[ℝ] ℝ => f x) h

theorem mat_apply (x : Cl A ℝ) (i j : Fin (2 ^ A.n)) : mat A x i j = coef A ℝ i (x * blade A ℝ j) := by
  rw [mat, Algebra.leftMulMatrix_apply, LinearMap.toMatrix_apply, repr_eq, bladeBasis_apply]
  rfl

theorem mat_zero (x : Cl A ℝ) (i : Fin (2 ^ A.n)) : mat A x i (zero A) = coef A ℝ i x := by
  rw [mat_apply]
  show coef A ℝ i (x * blade A ℝ 0) = _
  rw [blade_zero, mul_one]

theorem norm_le {m : Mat A} {r : ℝ} (h : ∀ i, ∑ j, |m i j| ≤ r) : ‖m‖ ≤ r := by
  have h0 : 0 ≤ r := (Finset.sum_nonneg fun _ _ => abs_nonneg _).trans (h (zero A))
  rw [Matrix.linfty_opNorm_def]
  lift r to NNReal using h0
  rw [NNReal.coe_le_coe]
  refine Finset.sup_le fun i _ => ?_
  rw [← NNReal.coe_le_coe]
  push_cast
  exact h i

theorem entry_le (m : Mat A) (i j : Fin (2 ^ A.n)) : |m i j| ≤ ‖m‖ := by
  rw [Matrix.linfty_opNorm_def]
  have h1 : ∑ j, ‖m i j‖₊ ≤ Finset.univ.sup fun i => ∑ j, ‖m i j‖₊ := Finset.le_sup (f := fun i => ∑ j, ‖m i j‖₊) (Finset.mem_univ i)
  have h2 : ‖m i j‖₊ ≤ ∑ j, ‖m i j‖₊ := Finset.single_le_sum (f := fun j => ‖m i j‖₊) (fun _ _ => zero_le) (Finset.mem_univ j)
  exact_mod_cast h2.trans h1

theorem mat_blade (hA : WfAlg A) {b : Nat} (hb : b < 2 ^ A.n) : ‖mat A (blade A ℝ b)‖ ≤ 1 := by
  refine norm_le fun i => ?_
  have hx : ∀ j : Fin (2 ^ A.n), b ^^^ (j : Nat) < 2 ^ A.n := fun j => Nat.xor_lt_two_pow hb j.2
  have key : ∀ j : Fin (2 ^ A.n), |mat A (blade A ℝ b) i j| ≤ if j = ⟨b ^^^ i, Nat.xor_lt_two_pow hb i.2⟩ then 1 else 0 := by
    intro j
    rw [mat_apply, blade_mul hA, map_smul, coef_blade A ℝ (hx j)]
    by_cases h : j = ⟨b ^^^ i, Nat.xor_lt_two_pow hb i.2⟩
    · rw [if_pos h, smul_eq_mul, abs_mul]
      have : |((sgn A b j : Int) : ℝ)| ≤ 1 := by rcases sgn_mem A b j with h | h | h <;> rw [h] <;> norm_num
      have h' : |if (i : Nat) = b ^^^ j then (1 : ℝ) else 0| ≤ 1 := by split <;> norm_num
      calc _ ≤ (1 : ℝ) * 1 := mul_le_mul this h' (abs_nonneg _) zero_le_one
        _ = 1 := one_mul 1
    · rw [if_neg h, if_neg, smul_zero, abs_zero]
      intro e
      apply h
      rw [Fin.ext_iff]
      show (j : Nat) = b ^^^ i
      rw [e, ← Nat.xor_assoc, Nat.xor_self, Nat.zero_xor]
  refine (Finset.sum_le_sum fun j _ => key j).trans (le_of_eq ?_)
  rw [Finset.sum_ite_eq' Finset.univ]
  simp

theorem mat_val (hA : WfAlg A) {b : MV ℝ} (hb : WfMV A b) : ‖mat A (val A b)‖ ≤ (b.vals.map fun a => |a|).sum := by
  obtain ⟨⟨bs⟩, vs⟩ := b
  have hl := hb.sub.lt
  clear hb
  simp only [val, denote] at hl ⊢
  induction bs generalizing vs with
  | nil => simpa using List.sum_nonneg (by simp)
  | cons a bs ih =>
    cases vs with
    | nil => simp
    | cons v vs =>
      simp only [List.zipWith_cons_cons, List.sum_cons, List.map_cons, map_add, map_smul]
      refine (norm_add_le _ _).trans (add_le_add ?_ (ih vs fun b h => hl b (List.mem_cons_of_mem _ h)))
      rw [norm_smul, Real.norm_eq_abs]
      exact mul_le_of_le_one_right (abs_nonneg _) (mat_blade hA (hl a List.mem_cons_self))

/-- The curve of exponentials. -/
noncomputable def curve (A : Alg) (B : Cl A ℝ) (t : ℝ) : Cl A ℝ :=
  ∑ b : Fin (2 ^ A.n), exp (t • mat A B) b (zero A) • blade A ℝ b

theorem coef_curve (B : Cl A ℝ) (t : ℝ) (i : Fin (2 ^ A.n)) : coef A ℝ i (curve A B t) = exp (t • mat A B) i (zero A) := by
  rw [curve, map_sum, Finset.sum_eq_single i]
  · rw [map_smul, coef_blade A ℝ i.2, if_pos rfl, smul_eq_mul, mul_one]
  · intro j _ hj
    rw [map_smul, coef_blade A ℝ j.2, if_neg (fun h => hj (Fin.ext h.symm)), smul_zero]
  · intro h; exact absurd (Finset.mem_univ i) h

theorem sum_fin (x : Cl A ℝ) : x = ∑ b : Fin (2 ^ A.n), coef A ℝ b x • blade A ℝ b := by
  conv_lhs => rw [sum_coef A ℝ x, Finset.sum_range]

theorem curve_exp (B : Cl A ℝ) : IsExpCurve A B (curve A B) where
  zero := by
    rw [sum_fin (curve A B 0), sum_fin (1 : Cl A ℝ)]
    refine Finset.sum_congr rfl fun i _ => ?_
    rw [coef_curve, zero_smul, exp_zero, ← mat_zero, map_one]
  deriv φ t := by
    have h1 := hasDerivAt_exp_smul_const' (𝕂 := ℝ) (mat A B) t
    have h2 : ∀ i : Fin (2 ^ A.n), HasDerivAt (fun t => coef A ℝ i (curve A B t)) (coef A ℝ i (B * curve A B t)) t := by
      intro i
      have h3 : HasDerivAt (fun t => exp (t • mat A B) i (zero A)) ((mat A B * exp (t • mat A B)) i (zero A)) t :=
        hasDerivAt_pi.1 (hasDerivAt_pi.1 h1 i) (zero A)
      simp only [coef_curve]
      refine h3.congr_deriv ?_
      rw [Matrix.mul_apply]
      conv_rhs => rw [sum_fin (curve A B t), Finset.mul_sum, map_sum]
      refine Finset.sum_congr rfl fun j _ => ?_
      rw [mul_smul_comm, map_smul, coef_curve, mat_apply, smul_eq_mul, mul_comm]
    have h4 : ∀ x : Cl A ℝ, φ x = ∑ b : Fin (2 ^ A.n), coef A ℝ b x * φ (blade A ℝ b) := by
      intro x
      conv_lhs => rw [sum_fin x, map_sum]
      simp only [map_smul, smul_eq_mul]
    rw [h4 (B * curve A B t), funext fun t => h4 (curve A B t)]
    exact HasDerivAt.fun_sum fun i _ => (h2 i).mul_const _

/-- An element with a small matrix: one plus or minus it is invertible. -/
theorem isUnit_of_mat {x : Cl A ℝ} (h : IsUnit (mat A x)) : IsUnit x := by
  have hinj : Function.Injective (LinearMap.mulLeft ℝ x) := by
    rw [← LinearMap.ker_eq_bot, LinearMap.ker_eq_bot']
    intro y hy
    rw [LinearMap.mulLeft_apply] at hy
    have := congrArg (mat A) hy
    rw [map_mul, map_zero] at this
    exact Algebra.leftMulMatrix_injective (bladeBasis A ℝ) (((h.mul_right_eq_zero).1 this).trans (map_zero (mat A)).symm)
  have : Module.Finite ℝ (Cl A ℝ) := Module.Finite.of_basis (bladeBasis A ℝ)
  obtain ⟨y, hy⟩ := LinearMap.surjective_of_injective hinj 1
  exact ⟨⟨x, y, hy, mul_eq_one_comm.1 hy⟩, rfl⟩

theorem isUnit_cayley {c : Cl A ℝ} (h : ‖mat A c‖ < 1) : IsUnit ((1 + c) * (1 - c)) := by
  apply isUnit_of_mat
  rw [map_mul, map_add, map_sub, map_one]
  refine IsUnit.mul ?_ (isUnit_one_sub_of_norm_lt_one h)
  rw [← sub_neg_eq_add]
  exact isUnit_one_sub_of_norm_lt_one (by rwa [norm_neg])

end Verif.ExpMatrix
