import Verif.Proofs.Physics16
import Verif.Proofs.Euclid
import Verif.Props.Physics2
/-! # Principal axes of clouds of points -/
namespace Verif
open Model Spec Props

/-- Algebras of Euclidean spaces. -/
structure Spec.Euc (A : Alg) : Prop where
  wf : WfAlg A
  two : 2 ≤ A.n
  sig : ∀ s ∈ A.desc.sig, s = 1

/-- A two bit pattern. -/
theorem two_bit {A : Alg} (hA : WfAlg A) {b : Nat} (hb : b < 2 ^ A.n) (h : popcount b = 2) : ∃ i k : Fin A.n, i ≠ k ∧ b = 2 ^ (i : Nat) ^^^ 2 ^ (k : Nat) := by
  have hp := h
  rw [popcount_of_lt hA.le32 hb] at hp
  obtain ⟨i, hi, hbi⟩ : ∃ i < A.n, b.testBit i = true := by
    by_contra hc
    push_neg at hc
    have : pc A.n b = 0 := (pc_eq_zero_iff ..).2 fun i hi => by simpa using hc i hi
    omega
  have li : 2 ^ i < 2 ^ A.n := Nat.pow_lt_pow_right (by norm_num) hi
  have hx := pc_xor A.n b (2 ^ i)
  have ha : b &&& 2 ^ i = 2 ^ i := by
    apply Nat.eq_of_testBit_eq
    intro j
    rw [Nat.testBit_and, Nat.testBit_two_pow]
    by_cases hj : i = j
    · subst hj; simp [hbi]
    · simp [hj]
  rw [ha, pc_two_pow hi] at hx
  obtain ⟨k, hk, e⟩ := one_bit hA (xor_lt hb li) (by rw [popcount_of_lt hA.le32 (xor_lt hb li)]; omega)
  have eb : b = 2 ^ i ^^^ 2 ^ k := by rw [← e, Nat.xor_comm, Nat.xor_assoc, Nat.xor_self, Nat.xor_zero]
  refine ⟨⟨i, hi⟩, ⟨k, hk⟩, ?_, eb⟩
  rintro hc
  have : i = k := congrArg Fin.val hc
  rw [this, Nat.xor_self] at eb
  subst eb
  simp at hbi

namespace Spec.Euc
variable {A : Alg} (h : Euc A) {R : Type} [Field R]
include h

theorem nonNeg : NonNeg A := fun s hs => by rw [h.sig s hs]; norm_num

theorem sigD {i : Nat} (hi : i < A.n) : A.desc.sig.getD i 0 = 1 := by
  have hl : i < A.desc.sig.length := hi
  rw [List.getD_eq_getElem?_getD, List.getElem?_eq_getElem hl]
  exact h.sig _ (List.getElem_mem hl)

theorem free (b : Nat) : ¬ NullBlade A b := by
  rintro ⟨i, hi, -, h3⟩
  rw [h.sigD hi] at h3
  cases h3

variable [DecidableEq R]

/-- The dual is the reverse times the pseudoscalar. -/
theorem rh_eq (x : Cl A R) : rhMap A R x = CliffordAlgebra.reverse x * blade A R A.pss := by
  have : rhMap A R = ((LinearMap.mul R (Cl A R)).flip (blade A R A.pss)).comp CliffordAlgebra.reverse := by
    apply lin_ext
    intro b hb
    exact rh_free h.wf hb (h.free b)
  rw [this]; rfl

omit [DecidableEq R] in
theorem dot_eq (u v : Fin A.n → R) : dot A u v = ∑ i, u i * v i := by
  refine Finset.sum_congr rfl fun i _ => ?_
  rw [metric, h.sigD i.2]; simp

/-- The sign of the dual of a point. -/
def sig' (A : Alg) (R : Type) [Field R] : R := (-1) ^ (A.n + 1 + pc A.n A.negatives)

/-- The join of a point with a vector. -/
theorem join_vec (w v : Fin A.n → R) : meet A R (rhMap A R (vec A w)) (vec A v) = (sig' A R * ∑ i, w i * v i) • 1 := by
  have hw := gradePart_vec (R := R) h.wf w
  have hv := gradePart_vec (R := R) h.wf v
  rw [h.rh_eq, show CliffordAlgebra.reverse (vec A w) = vec A w from CliffordAlgebra.reverse_ι _, pairing h.wf hw hv, inner_vec h.wf, h.dot_eq,
    Algebra.algebraMap_eq_smul_one, smul_smul]
  rfl

/-- The vector with the coordinates `w_k` at `i` and `-w_i` at `k`. -/
def turn (w : Fin n → R) (i k : Fin n) : Fin n → R := w k • Pi.single i 1 - w i • Pi.single k 1

theorem join_pair {i k : Fin A.n} (hik : i ≠ k) : ∃ t : R, t * t = 1 ∧ ∀ w : Fin A.n → R,
    meet A R (rhMap A R (vec A w)) (blade A R (2 ^ (i : Nat) ^^^ 2 ^ (k : Nat))) = t • vec A (turn w i k) := by
  have hik' : (i : Nat) ≠ k := fun e => hik (Fin.ext e)
  have hp : (-1 : R) ^ inv A.n (2 ^ (i : Nat)) (2 ^ (k : Nat)) * (-1) ^ inv A.n (2 ^ (i : Nat)) (2 ^ (k : Nat)) = 1 := by rw [← mul_pow]; norm_num
  have hs : sig' A R * sig' A R = 1 := by rw [sig', ← mul_pow]; norm_num
  refine ⟨(-1) ^ inv A.n (2 ^ (i : Nat)) (2 ^ (k : Nat)) * sig' A R, by rw [mul_mul_mul_comm, hp, hs, one_mul], fun w => ?_⟩
  have e := comm_pow (A := A) (R := R) i.2 k.2 hik'
  have hq : gradePart A R (A.n - 1) (rhMap A R (vec A w)) = rhMap A R (vec A w) := by
    rw [rh_grade h.wf (k := 1) (by have := h.two; omega), gradePart_vec h.wf]
  have gen_vec : ∀ i : Fin A.n, blade A R (2 ^ (i : Nat)) = vec A (Pi.single i 1) := fun i => blade_two_pow A R i
  have j := fun i : Fin A.n => h.join_vec w (Pi.single i 1)
  simp only [Pi.single_apply, mul_ite, mul_one, mul_zero, Finset.sum_ite_eq', Finset.mem_univ, if_true] at j
  have e2 := point_comm h.wf hq (gradePart_vec h.wf (Pi.single i 1)) (gradePart_vec h.wf (Pi.single k 1))
  rw [← gen_vec, ← gen_vec, e, map_smul] at e2
  have e3 := congrArg (((-1 : R) ^ inv A.n (2 ^ (i : Nat)) (2 ^ (k : Nat))) • ·) e2
  simp only [smul_smul, hp, one_smul] at e3
  rw [e3, gen_vec, gen_vec, j, j, turn, mul_smul]
  simp only [vec, map_sub, map_smul, smul_mul_assoc, one_mul, smul_sub, smul_smul, mul_assoc]

omit h [DecidableEq R] in
theorem sum_turn (ws : List (Fin A.n → R)) {S : Fin A.n → R} (hS : ∀ i k, (ws.map fun w => w i * w k).sum = if i = k then S i else 0) (i k j l : Fin A.n) :
    (ws.map fun w => ∑ m, turn w i k m * turn w j l m).sum =
      (if i = j then (if k = l then S k else 0) else 0) - (if i = l then (if k = j then S k else 0) else 0) - (if k = j then (if i = l then S i else 0) else 0) +
        (if k = l then (if i = j then S i else 0) else 0) := by
  have e : ∀ w : Fin A.n → R, ∑ m, turn w i k m * turn w j l m =
      (if i = j then w k * w l else 0) - (if i = l then w k * w j else 0) - (if k = j then w i * w l else 0) + (if k = l then w i * w j else 0) := by
    intro w
    simp only [turn, Pi.sub_apply, Pi.smul_apply, Pi.single_apply, smul_eq_mul, mul_ite, mul_one, mul_zero, sub_mul, mul_sub, ite_mul, zero_mul,
      Finset.sum_sub_distrib, Finset.sum_ite_eq', Finset.mem_univ, if_true]
    rw [eq_comm]
    simp only [eq_comm (a := l), eq_comm (a := j)]
    split_ifs <;> ring
  rw [List.map_congr_left fun w _ => e w]
  have ls : ∀ (ws : List (Fin A.n → R)) (f g : (Fin A.n → R) → R), (ws.map fun w => f w - g w).sum = (ws.map f).sum - (ws.map g).sum := fun ws f g => by
    induction ws with
    | nil => simp
    | cons w ws ih => simp only [List.map_cons, List.sum_cons]; rw [ih]; ring
  have la : ∀ (ws : List (Fin A.n → R)) (f g : (Fin A.n → R) → R), (ws.map fun w => f w + g w).sum = (ws.map f).sum + (ws.map g).sum := fun ws f g => by
    induction ws with
    | nil => simp
    | cons w ws ih => simp only [List.map_cons, List.sum_cons]; rw [ih]; ring
  have li : ∀ (p : Prop) [Decidable p] (f : (Fin A.n → R) → R), (ws.map fun w => if p then f w else 0).sum = if p then (ws.map f).sum else 0 := fun p _ f => by
    split_ifs <;> simp
  rw [la, ls, ls, li, li, li, li, hS, hS, hS, hS]

/-- The principal moment of a plane: the sum of the second moments of its axes. -/
def moment (S : Fin n → R) (b : Nat) : R := ∑ i : Fin n, if b.testBit i then S i else 0

omit h [DecidableEq R] in
theorem moment_pair (S : Fin n → R) {i k : Fin n} (hik : i ≠ k) : moment S (2 ^ (i : Nat) ^^^ 2 ^ (k : Nat)) = S i + S k := by
  have e : ∀ m : Fin n, (2 ^ (i : Nat) ^^^ 2 ^ (k : Nat)).testBit m = (decide (m = i) ^^ decide (m = k)) := fun m => by
    rw [Nat.testBit_xor, Nat.testBit_two_pow, Nat.testBit_two_pow]
    simp only [Fin.ext_iff, eq_comm (a := (m : Nat))]
  have e' : ∀ m : Fin n, (if (2 ^ (i : Nat) ^^^ 2 ^ (k : Nat)).testBit m then S m else 0) = (if m = i then S i else 0) + if m = k then S k else 0 := fun m => by
    rw [e]
    by_cases h1 : m = i
    · subst h1; simp [hik]
    · by_cases h2 : m = k
      · subst h2; simp [h1]
      · simp [h1, h2]
  rw [moment, Finset.sum_congr rfl fun m _ => e' m, Finset.sum_add_distrib]
  simp

/-- The pairing of two rates by a cloud of points whose axes are the principal ones. -/
theorem principal (ws : List (Fin A.n → R)) {S : Fin A.n → R} (hS : ∀ i k, (ws.map fun w => w i * w k).sum = if i = k then S i else 0) {x y : Cl A R}
    (hx : gradePart A R 2 x = x) (hy : gradePart A R 2 y = y) :
    ((ws.map fun w => rhMap A R (vec A w)).map fun p => innerMap A R (meet A R p x) (meet A R p y)).sum =
      (∑ b ∈ Finset.range (2 ^ A.n), moment S b * (coef A R b x * coef A R b y)) • 1 := by
  let D : (Fin A.n → R) → Cl A R →ₗ[R] Cl A R →ₗ[R] Cl A R := fun w =>
    (gradedProductₗ A R (fun i j k => i + k = j ∨ j + k = i)).compl₁₂ (meet A R (rhMap A R (vec A w))) (meet A R (rhMap A R (vec A w)))
  have ap : ∀ (ws : List (Fin A.n → R)) (x y : Cl A R), (ws.map D).sum x y = (ws.map fun w => D w x y).sum := fun ws x y => by
    induction ws with
    | nil => simp
    | cons w ws ih => simp only [List.map_cons, List.sum_cons, LinearMap.add_apply, ih]
  have : ((ws.map D).sum).compl₁₂ (gradePart A R 2) (gradePart A R 2) =
      ((∑ b ∈ Finset.range (2 ^ A.n), (LinearMap.mul R R).compl₁₂ (moment S b • coef A R b) (coef A R b)).compr₂
        ((LinearMap.id : R →ₗ[R] R).smulRight (1 : Cl A R))).compl₁₂ (gradePart A R 2) (gradePart A R 2) := by
    apply lin_ext₂
    intro a ha c hc
    rw [LinearMap.compl₁₂_apply, LinearMap.compl₁₂_apply, gradePart_blade _ ha, gradePart_blade _ hc]
    by_cases pa : popcount a = 2
    swap
    · rw [if_neg pa]; simp
    by_cases pc' : popcount c = 2
    swap
    · rw [if_neg pc']; simp
    rw [if_pos pa, if_pos pc', ap, LinearMap.compr₂_apply, LinearMap.sum_apply, LinearMap.sum_apply]
    have e1 : (∑ b ∈ Finset.range (2 ^ A.n), ((LinearMap.mul R R).compl₁₂ (moment S b • coef A R b) (coef A R b)) (blade A R a) (blade A R c)) =
        if a = c then moment S a else 0 := by
      rw [Finset.sum_eq_single a]
      · rw [LinearMap.compl₁₂_apply, LinearMap.smul_apply, coef_blade _ _ ha, coef_blade _ _ hc, if_pos rfl, smul_eq_mul, mul_one, LinearMap.mul_apply']
        split <;> simp
      · intro b _ hb
        rw [LinearMap.compl₁₂_apply, LinearMap.smul_apply, coef_blade _ _ ha, if_neg hb]; simp
      · intro hb; exact absurd (Finset.mem_range.2 ha) hb
    rw [e1]
    obtain ⟨i, k, hik, rfl⟩ := two_bit h.wf ha pa
    obtain ⟨t, t1, t2⟩ := h.join_pair (R := R) hik
    have val : ∀ {j l : Fin A.n} {s : R}, (∀ w : Fin A.n → R, meet A R (rhMap A R (vec A w)) (blade A R c) = s • vec A (turn w j l)) →
        (ws.map fun w => D w (blade A R (2 ^ (i : Nat) ^^^ 2 ^ (k : Nat))) (blade A R c)).sum =
          (t * s * (ws.map fun w => ∑ m, turn w i k m * turn w j l m).sum) • (1 : Cl A R) := by
      intro j l s hs
      have : ∀ w, D w (blade A R (2 ^ (i : Nat) ^^^ 2 ^ (k : Nat))) (blade A R c) = (t * s * ∑ m, turn w i k m * turn w j l m) • (1 : Cl A R) := by
        intro w
        show gradedProductₗ A R (fun i j k => i + k = j ∨ j + k = i) _ _ = _
        rw [t2, hs, map_smul, map_smul, LinearMap.smul_apply, gradedProductₗ_apply]
        show s • t • innerMap A R _ _ = _
        rw [inner_vec h.wf, h.dot_eq, Algebra.algebraMap_eq_smul_one, smul_smul, smul_smul, mul_comm t s, mul_assoc]
      rw [List.map_congr_left fun w _ => this w, ← List.sum_map_mul_left]
      clear hS
      induction ws with
      | nil => simp
      | cons w ws ih => simp only [List.map_cons, List.sum_cons, ih, add_smul]
    by_cases hac : 2 ^ (i : Nat) ^^^ 2 ^ (k : Nat) = c
    · subst hac
      rw [val t2, sum_turn ws hS, if_pos rfl, moment_pair S hik, t1]
      simp [hik, hik.symm, add_comm]
    · obtain ⟨j, l, hjl, rfl⟩ := two_bit h.wf hc pc'
      obtain ⟨s, -, s2⟩ := h.join_pair (R := R) hjl
      rw [val s2, sum_turn ws hS, if_neg hac]
      have n1 : ¬ (i = j ∧ k = l) := by rintro ⟨rfl, rfl⟩; exact hac rfl
      have n2 : ¬ (i = l ∧ k = j) := by rintro ⟨rfl, rfl⟩; exact hac (Nat.xor_comm _ _)
      simp only [← ite_and, and_comm (a := k = j), and_comm (a := k = l), n1, n2, if_false]
      simp
  have e := LinearMap.congr_fun (LinearMap.congr_fun this x) y
  simp only [LinearMap.compl₁₂_apply, hx, hy] at e
  rw [ap] at e
  rw [List.map_map]
  refine Eq.trans ?_ (e.trans ?_)
  · refine congrArg List.sum (List.map_congr_left fun w _ => ?_)
    rw [Function.comp_apply, innerMap, ← gradedProductₗ_apply]; rfl
  rw [LinearMap.compr₂_apply, LinearMap.sum_apply, LinearMap.sum_apply, LinearMap.smulRight_apply, LinearMap.id_apply]
  congr 1
  refine Finset.sum_congr rfl fun b _ => ?_
  simp [mul_assoc]

end Spec.Euc
end Verif
