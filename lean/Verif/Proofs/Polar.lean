import Verif.Props.Backend
import Verif.Proofs.SubspaceOps
import Mathlib.Tactic.LinearCombination
import Mathlib.Tactic.Ring
/-! # Polarisation: the output space of a symmetrised operator is what its values on equal arguments need -/
namespace Verif
open Model Spec Model.Factory Props

variable {A : Alg}

/-- The homogeneous polynomial with coefficients `g`. -/
def diag (L : Nat) (x : Nat → ℤ) : Nat → (List Nat → ℤ) → ℤ
  | 0, g => g []
  | k + 1, g => ∑ i ∈ Finset.range L, x i * diag L x k fun idx => g (i :: idx)

/-- Its derivative. -/
def deriv (i : Nat) (g : List Nat → ℤ) (idx : List Nat) : ℤ := ((List.permutations'Aux i idx).map g).sum

theorem diag_add (L : Nat) (x : Nat → ℤ) (k : Nat) (g h : List Nat → ℤ) :
    diag L x k (fun idx => g idx + h idx) = diag L x k g + diag L x k h := by
  induction k generalizing g h with
  | zero => rfl
  | succ k ih => simp only [diag, ih, mul_add, Finset.sum_add_distrib]

theorem diag_congr {L : Nat} {x y : Nat → ℤ} (h : ∀ i < L, x i = y i) {k : Nat} {g : List Nat → ℤ} : diag L x k g = diag L y k g := by
  induction k generalizing g with
  | zero => rfl
  | succ k ih => exact Finset.sum_congr rfl fun i hi => by rw [h i (Finset.mem_range.1 hi), ih]

theorem diag_deriv (L : Nat) (x : Nat → ℤ) (i k : Nat) (g : List Nat → ℤ) :
    diag L x (k + 1) (deriv i g) = diag L x (k + 1) (fun idx => g (i :: idx)) +
      ∑ j ∈ Finset.range L, x j * diag L x k (deriv i fun idx => g (j :: idx)) := by
  simp only [diag]
  rw [← Finset.sum_add_distrib]
  refine Finset.sum_congr rfl fun j _ => ?_
  rw [← mul_add, ← diag_add]
  congr 2
  funext idx
  simp [deriv, List.permutations'Aux, Function.comp_def]

theorem diag_step (L : Nat) (x : Nat → ℤ) {i : Nat} (hi : i < L) (t : ℤ) (k : Nat) (g : List Nat → ℤ) :
    t * t ∣ diag L (fun j => x j + if j = i then t else 0) (k + 1) g - diag L x (k + 1) g - t * diag L x k (deriv i g) := by
  induction k generalizing g with
  | zero =>
    refine ⟨0, ?_⟩
    simp only [diag, add_mul, Finset.sum_add_distrib, deriv, List.permutations'Aux, ite_mul, zero_mul]
    rw [Finset.sum_ite_eq' , if_pos (Finset.mem_range.2 hi)]
    simp
  | succ k ih =>
    rw [diag_deriv]
    have e : diag L (fun j => x j + if j = i then t else 0) (k + 2) g =
        ∑ j ∈ Finset.range L, x j * diag L (fun j => x j + if j = i then t else 0) (k + 1) (fun idx => g (j :: idx)) +
          t * diag L (fun j => x j + if j = i then t else 0) (k + 1) (fun idx => g (i :: idx)) := by
      rw [diag]
      simp only [add_mul, Finset.sum_add_distrib, ite_mul, zero_mul]
      rw [Finset.sum_ite_eq' , if_pos (Finset.mem_range.2 hi)]
    have e2 : diag L x (k + 2) g = ∑ j ∈ Finset.range L, x j * diag L x (k + 1) (fun idx => g (j :: idx)) := rfl
    have h1 : t * t ∣ ∑ j ∈ Finset.range L, x j * (diag L (fun j => x j + if j = i then t else 0) (k + 1) (fun idx => g (j :: idx)) -
        diag L x (k + 1) (fun idx => g (j :: idx)) - t * diag L x k (deriv i fun idx => g (j :: idx))) :=
      Finset.dvd_sum fun j _ => Dvd.dvd.mul_left (ih _) _
    have h2 : t * t ∣ t * (diag L (fun j => x j + if j = i then t else 0) (k + 1) (fun idx => g (i :: idx)) -
        diag L x (k + 1) (fun idx => g (i :: idx))) := by
      apply mul_dvd_mul_left
      obtain ⟨c, hc⟩ := ih (fun idx => g (i :: idx))
      exact ⟨t * c + diag L x k (deriv i fun idx => g (i :: idx)), by linear_combination hc⟩
    have h3 := dvd_add h1 h2
    simp only [mul_sub, Finset.sum_sub_distrib] at h3
    rw [e, e2]
    have e3 : ∑ j ∈ Finset.range L, x j * (t * diag L x k (deriv i fun idx => g (j :: idx))) =
        t * ∑ j ∈ Finset.range L, x j * diag L x k (deriv i fun idx => g (j :: idx)) := by
      rw [Finset.mul_sum]; exact Finset.sum_congr rfl fun j _ => by ring
    rw [e3] at h3
    obtain ⟨c, hc⟩ := h3
    exact ⟨c, by rw [← hc, mul_add]; abel⟩

/-- A polynomial that vanishes everywhere has vanishing derivatives. -/
theorem deriv_zero {L k : Nat} {g : List Nat → ℤ} (h : ∀ x, diag L x (k + 1) g = 0) {i : Nat} (hi : i < L) (x : Nat → ℤ) :
    diag L x k (deriv i g) = 0 := by
  by_contra hne
  have ht : ∀ t : ℤ, t ≠ 0 → t ∣ diag L x k (deriv i g) := by
    intro t h0
    have := diag_step L x hi t k g
    rw [h, h, sub_zero, zero_sub, dvd_neg] at this
    exact (mul_dvd_mul_iff_left h0).1 this
  have h1 := ht (2 * diag L x k (deriv i g)) (by omega)
  have := Int.natAbs_dvd_natAbs.2 h1
  rw [Int.natAbs_mul] at this
  have := Nat.le_of_dvd (Int.natAbs_pos.2 hne) this
  have := Int.natAbs_pos.2 hne
  simp at *
  omega

/-- A polynomial that vanishes everywhere has symmetrised coefficients zero. -/
theorem polar {L : Nat} : ∀ (idx : List Nat) (_ : ∀ i ∈ idx, i < L) {g : List Nat → ℤ} (_ : ∀ x, diag L x idx.length g = 0),
    (idx.permutations'.map g).sum = 0
  | [], _, g, h => by simpa [diag] using h 0
  | i :: idx, hi, g, h => by
    have := polar idx (fun j hj => hi j (by simp [hj])) (g := deriv i g) fun x => deriv_zero h (hi i (by simp)) x
    rw [← this, List.permutations', List.map_flatMap, List.flatMap_def, List.sum_flatten, List.map_map]
    rfl

theorem contract_replicate {L : Nat} {x : List ℤ} (hx : x.length = L) (k : Nat) (g : List Nat → ℤ) :
    contract (List.replicate k x) g = diag L (fun i => x.getD i 0) k g := by
  induction k generalizing g with
  | zero => rfl
  | succ k ih =>
    rw [List.replicate_succ, contract, diag, hx]
    exact Finset.sum_congr rfl fun i _ => by rw [ih]

theorem perms_permIdx {k : Nat} {idx : List Nat} (hl : idx.length = k) (f : List Nat → ℤ) :
    ((List.range k).permutations'.map fun p => f (permIdx (List.range k) p k idx)).sum = (idx.permutations'.map f).sum := by
  have h1 : ∀ p ∈ (List.range k).permutations', permIdx (List.range k) p k idx = p.map (idx.getD · 0) := by
    intro p hp
    have hp := List.mem_permutations'.1 hp
    have hlen : p.length = k := by simpa using hp.length_eq
    apply List.ext_getElem (by simp [permIdx, hlen])
    intro i h1 h2
    have hi : i < k := by simpa [permIdx] using h1
    simp only [permIdx, List.getElem_map, List.getElem_range, permPos, List.mem_range, hi, if_true]
    congr 1
    have : (List.range k).idxOf i = i := by
      have := List.nodup_range (n := k) |>.idxOf_getElem i (by simpa using hi)
      simpa using this
    rw [this, getD_lt _ _ (by omega)]
  have h2 : idx = (List.range k).map (idx.getD · 0) := by
    apply List.ext_getElem (by simp [hl])
    intro i h1 h2
    simp [h1]
  rw [List.map_congr_left (g := f ∘ List.map (idx.getD · 0)) fun p hp => by rw [h1 p hp]; rfl]
  rw [← List.map_map, List.map_permutations', ← h2]

theorem coef_denote_getD {R : Type} [CommRing R] {S : SubSpace} (hS : WfSub A S) {u : List R} (hu : u.length = S.blades.length) {i : Nat}
    (hi : i < S.blades.length) : coef A R (S.blades.getD i 0) (denote A R S u) = u.getD i 0 := by
  rw [coef_denote hS hu]
  have hn := hS.nodup
  obtain ⟨bs⟩ := S
  simp only at hu hi hn ⊢
  clear hS
  induction bs generalizing u i with
  | nil => simp at hi
  | cons c cs ih =>
    obtain ⟨w, ws, rfl⟩ : ∃ w ws, u = w :: ws := by
      cases u with
      | nil => simp at hu
      | cons w ws => exact ⟨w, ws, rfl⟩
    cases i with
    | zero => simp
    | succ i =>
      have hi' : i < cs.length := by simpa using hi
      have hm : cs.getD i 0 ∈ cs := by rw [getD_lt _ _ hi']; exact List.getElem_mem _
      have hne : (cs.getD i 0 == c) = false := by
        rw [beq_eq_false_iff_ne]
        intro e
        rw [e] at hm
        exact (List.nodup_cons.1 hn).1 hm
      rw [List.getD_cons_succ, List.getD_cons_succ, List.zip_cons_cons, List.lookup_cons, hne]
      exact ih (by simpa using hu) hi' (List.nodup_cons.1 hn).2

/-- Every output blade of an operator symmetrised over all its inputs is needed for some integer argument. -/
theorem symmetry_needed (hA : WfAlg A) {op s : Operator Int} (h : WfOp A op) {S : SubSpace} {k : Nat} (hk : 0 < k)
    (hin : op.inputs = List.replicate k S) (hs : op.symmetry A (List.range k) = some s) {b : Nat} (hb : b ∈ s.output.blades) :
    ∃ x : List ℤ, x.length = S.blades.length ∧ coef A ℤ b (denote A ℤ s.output (s.apply ℤ (List.replicate k x))) ≠ 0 := by
  obtain ⟨s', s1, s2, s3, s4, s5⟩ := symmetry_spec hA h (axes := List.range k) (by simp; omega) List.nodup_range (by simp [hin]) (T := S)
    (by intro a ha; rw [hin, List.getElem?_replicate, if_pos (List.mem_range.1 ha)])
  cases s1.symm.trans hs
  obtain ⟨o, ho, rfl, idx, hidx, hnz⟩ := s4 b hb
  rw [hin] at hidx hnz
  rw [List.length_replicate] at hnz
  have hlen : idx.length = k := by simpa using hidx.length_eq
  rw [perms_permIdx hlen (fun l => op.kernel.get (l ++ [o]))] at hnz
  by_contra hc
  push Not at hc
  apply hnz
  have hi : ∀ i ∈ idx, i < S.blades.length := by
    intro i hi
    obtain ⟨j, hj, rfl⟩ := List.getElem_of_mem hi
    have := List.forall₂_iff_get.1 hidx
    have := this.2 j hj (by simp; omega)
    simpa using this
  apply polar idx hi
  intro y
  set x : List ℤ := (List.range S.blades.length).map y with hx
  have hxl : x.length = S.blades.length := by simp [hx]
  have e := hc x hxl
  rw [s5 ℤ _ (by simp [hin]) (by
    intro a ha c hc
    rw [getD_lt _ _ (by simpa using ha), getD_lt _ _ (by simpa using hc), List.getElem_replicate, List.getElem_replicate])] at e
  rw [coef_denote_getD h.wf_output (apply_length ℤ h _) ho, Operator.apply, eval_getD (wf_cast ℤ h) _ (o := o) ho, evalAt_eq,
    (wf_cast ℤ h).shape_in] at e
  have hl : (op.cast ℤ).inputs.map (·.blades.length) = (List.replicate k x).map (·.length) := by
    rw [cast_inputs, hin, List.map_replicate, List.map_replicate, hxl]
  rw [hl] at e
  have e' := contract_eq (List.replicate k x) fun idx => (op.cast ℤ).kernel.get (idx ++ [o])
  rw [e] at e'
  rw [hlen, ← diag_congr (x := fun i => x.getD i 0) fun i hi => by simp [hx, hi], ← contract_replicate hxl, e']
  rfl

end Verif
