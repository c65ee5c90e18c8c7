import Mathlib.Analysis.SpecialFunctions.Integrals.Basic
/-! # Integrals over simplices -/
namespace Verif.Spec

/-- The integral of a function over `{v | 0 ≤ v i, ∑ v i ≤ t}`, one coordinate after the other. -/
noncomputable def simplexIntegral : (n : ℕ) → ℝ → ((Fin n → ℝ) → ℝ) → ℝ
  | 0, _, f => f Fin.elim0
  | n + 1, t, f => ∫ x in (0 : ℝ)..t, simplexIntegral n (t - x) fun v => f (Fin.cons x v)

/-- The mean of a function of the barycentric coordinates of a simplex with `n + 1` corners, for uniform density. -/
noncomputable def simplexMean (n : ℕ) (f : (Fin (n + 1) → ℝ) → ℝ) : ℝ :=
  simplexIntegral n 1 (fun v => f (Fin.cons (1 - ∑ i, v i) v)) / simplexIntegral n 1 fun _ => 1

end Verif.Spec
