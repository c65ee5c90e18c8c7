import Verif.Proofs.Values
import Verif.Spec.Products
/-! # Lemmas for the product properties -/
namespace Verif
open Model Spec Model.Factory

variable {A : Alg} {R : Type} [CommRing R]

theorem valExt_eq {x : MV R} (hx : WfMV A x) : valExt A x = toExt A R (val A x) := by
  obtain ⟨⟨bs⟩, v⟩ := x
  have hlt := hx.sub.lt
  clear hx
  simp only [valExt, val, denoteExt, denote] at *
  induction bs generalizing v with
  | nil => simp
  | cons c cs ih =>
    cases v with
    | nil => simp
    | cons w ws =>
      rw [List.zipWith_cons_cons, List.zipWith_cons_cons, List.sum_cons, List.sum_cons, map_add, map_smul,
        toExt_blade (hlt c List.mem_cons_self), ih _ fun b hb => hlt b (List.mem_cons_of_mem _ hb)]

theorem gradePart_val {x : MV R} (hx : WfMV A x) {k : Nat} (h : Homogeneous k x) : gradePart A R k (val A x) = val A x :=
  proj_val hx (popcount · = k) h

theorem wedge_gives (hA : WfAlg A) {x y : MV R} (hx : WfMV A x) (hy : WfMV A y) : Gives A (x.wedge A y) (wedgeMap A R (val A x) (val A y)) :=
  bin_gives (wedge_bin hA) hx hy

/-! ### algebras without null vectors -/

theorem unnull_n (A : Alg) : (unnull A).n = A.n := by simp [unnull, Alg.n, Description.nDimensions]

theorem wf_unnull (hA : WfAlg A) : WfAlg (unnull A) := by
  refine ⟨by rw [unnull_n]; exact hA.pos, by rw [unnull_n]; exact hA.le32, by rw [unnull_n]; exact hA.le_width, hA.item_le, ?_, ?_⟩
  · intro s hs
    simp only [unnull, List.mem_map] at hs
    obtain ⟨t, ht, rfl⟩ := hs
    rcases hA.sig t ht with h | h | h <;> simp [h]
  · simp [unnull, hA.names]

theorem unnull_sig (A : Alg) (i : Nat) (hi : i < A.n) :
    (unnull A).desc.sig.getD i 0 = if A.desc.sig.getD i 0 = 0 then 1 else A.desc.sig.getD i 0 := by
  have hi' : i < A.desc.sig.length := hi
  simp only [unnull]
  rw [getD_lt _ _ (by simpa using hi'), getD_lt _ _ hi', List.getElem_map]

theorem unnull_sgn (hA : WfAlg A) (a b : Nat) :
    sgn (unnull A) a b = (-1) ^ (pc A.n (a &&& b &&& A.negatives) + inv A.n a b) := by
  have hn := unnull_n A
  have hz : pc (unnull A).n (a &&& b &&& (unnull A).zeros) = 0 := by
    rw [pc, Finset.sum_eq_zero_iff]
    intro i hi
    rw [Finset.mem_range] at hi
    rw [Nat.testBit_and, zeros_testBit (wf_unnull hA) i hi, unnull_sig A i (hn ▸ hi)]
    generalize A.desc.sig.getD i 0 = s
    split <;> simp [*]
  have hneg : pc (unnull A).n (a &&& b &&& (unnull A).negatives) = pc A.n (a &&& b &&& A.negatives) := by
    rw [pc, pc, hn]
    apply Finset.sum_congr rfl
    intro i hi
    rw [Finset.mem_range] at hi
    rw [Nat.testBit_and, negatives_testBit (wf_unnull hA) i (hn ▸ hi), unnull_sig A i hi, Nat.testBit_and _ A.negatives, negatives_testBit hA i hi]
    by_cases h : A.desc.sig.getD i 0 = 0
    · rw [if_pos h, h]; simp
    · rw [if_neg h]
  rw [sgn, hz, if_pos rfl, mul_one, hneg, hn]

theorem relabel_blade {b : Nat} (hb : b < 2 ^ A.n) : relabel A R (blade A R b) = blade (unnull A) R b := linExt_blade _ hb

theorem relabel_injective : Function.Injective (relabel A R) := by
  intro x y h
  apply ext_coef
  intro b hb
  have key : ∀ z, coef (unnull A) R b (relabel A R z) = coef A R b z := by
    intro z
    have : (coef (unnull A) R b).comp (relabel A R) = coef A R b := by
      apply lin_ext
      intro a ha
      rw [LinearMap.comp_apply, relabel_blade ha, coef_blade _ _ ha, coef_blade _ _ (by rw [unnull_n]; exact ha)]
    exact LinearMap.congr_fun this z
  rw [← key x, ← key y, h]

theorem and_pss {b : Nat} (hb : b < 2 ^ A.n) : b &&& A.pss = b := by
  apply Nat.eq_of_testBit_eq
  intro i
  rw [Nat.testBit_and, Alg.pss, Nat.testBit_two_pow_sub_one]
  by_cases hi : i < A.n
  · simp [hi]
  · simp [hi, testBit_false_of_lt hb (Nat.le_of_not_lt hi)]

theorem relabel_rc (hA : WfAlg A) (x : Cl A R) : relabel A R (rcMap A R x) = relabel A R x * blade (unnull A) R A.pss := by
  have : (relabel A R).comp (rcMap A R) = (LinearMap.mulRight R (blade (unnull A) R A.pss)).comp (relabel A R) := by
    apply lin_ext
    intro b hb
    rw [LinearMap.comp_apply, LinearMap.comp_apply, rcMap_blade hA hb, map_smul, relabel_blade (xor_lt hb (pss_lt A)), relabel_blade hb,
      LinearMap.mulRight_apply, blade_mul (wf_unnull hA), unnull_sgn hA, and_pss hb, rcSign, add_comm]
  exact LinearMap.congr_fun this x

theorem relabel_lc (hA : WfAlg A) (x : Cl A R) : relabel A R (lcMap A R x) = blade (unnull A) R A.pss * relabel A R x := by
  have : (relabel A R).comp (lcMap A R) = (LinearMap.mulLeft R (blade (unnull A) R A.pss)).comp (relabel A R) := by
    apply lin_ext
    intro b hb
    rw [LinearMap.comp_apply, LinearMap.comp_apply, lcMap_blade hA hb, map_smul, relabel_blade (xor_lt hb (pss_lt A)), relabel_blade hb,
      LinearMap.mulLeft_apply, blade_mul (wf_unnull hA), unnull_sgn hA, Nat.and_comm A.pss b, and_pss hb, Nat.xor_comm A.pss b, pow_add, inv_pss_pow hb, rcSign, pow_add]
    congr 2
    ring
  exact LinearMap.congr_fun this x

/-! ### commutators -/

/-- Commutator on elements. -/
noncomputable def comm (A : Alg) (R : Type) [CommRing R] : Cl A R →ₗ[R] Cl A R →ₗ[R] Cl A R := bil A R (halfSign (sgn A) (-1)) (· ^^^ ·)
/-- Anticommutator on elements. -/
noncomputable def acomm (A : Alg) (R : Type) [CommRing R] : Cl A R →ₗ[R] Cl A R →ₗ[R] Cl A R := bil A R (halfSign (sgn A) 1) (· ^^^ ·)

theorem two_comm (hA : WfAlg A) (x y : Cl A R) : (2 : R) • comm A R x y = x * y - y * x := by
  rw [comm, bil_half (Or.inr rfl) (fun a c => sgn_swap A a c) (fun a c => Nat.xor_comm a c), bil_mul hA, bil_mul hA]
  simp [sub_eq_add_neg]
theorem two_acomm (hA : WfAlg A) (x y : Cl A R) : (2 : R) • acomm A R x y = x * y + y * x := by
  rw [acomm, bil_half (Or.inl rfl) (fun a c => sgn_swap A a c) (fun a c => Nat.xor_comm a c), bil_mul hA, bil_mul hA]
  simp

theorem comm_add_acomm (hA : WfAlg A) (x y : Cl A R) : comm A R x y + acomm A R x y = x * y := by
  have : comm A R + acomm A R = LinearMap.mul R (Cl A R) := by
    apply lin_ext₂
    intro a ha c hc
    rw [LinearMap.add_apply, LinearMap.add_apply, comm, acomm, bil_blade _ _ ha hc, bil_blade _ _ ha hc, LinearMap.mul_apply', blade_mul hA, ← add_smul]
    congr 1
    rw [← Int.cast_add]
    congr 1
    have h1 := halfSign_two (s := -1) (Or.inr rfl) (sgn_swap A a c)
    have h2 := halfSign_two (s := 1) (Or.inl rfl) (sgn_swap A a c)
    omega
  exact LinearMap.congr_fun₂ this x y

theorem comm_blade_cast {a c : Nat} (ha : a < 2 ^ A.n) (hc : c < 2 ^ A.n) :
    comm A R (blade A R a) (blade A R c) = ((halfSign (sgn A) (-1) a c : Int) : R) • blade A R (a ^^^ c) := bil_blade _ _ ha hc

/-- The integer behind the Jacobi identity on blades. -/
theorem jacobi_int (hA : WfAlg A) {a b c : Nat} (ha : a < 2 ^ A.n) (hb : b < 2 ^ A.n) (hc : c < 2 ^ A.n) :
    halfSign (sgn A) (-1) b c * halfSign (sgn A) (-1) a (b ^^^ c) + halfSign (sgn A) (-1) c a * halfSign (sgn A) (-1) b (c ^^^ a) +
      halfSign (sgn A) (-1) a b * halfSign (sgn A) (-1) c (a ^^^ b) = 0 := by
  have h4 : ∀ x y z : Cl A ℤ, (4 : ℤ) • (comm A ℤ x (comm A ℤ y z) + comm A ℤ y (comm A ℤ z x) + comm A ℤ z (comm A ℤ x y)) = 0 := by
    intro x y z
    have e : ∀ u v w : Cl A ℤ, (4 : ℤ) • comm A ℤ u (comm A ℤ v w) = u * (v * w - w * v) - (v * w - w * v) * u := by
      intro u v w
      rw [← two_comm hA v w, show (4 : ℤ) = 2 * 2 from rfl, mul_smul, ← map_smul, two_comm hA]
    rw [smul_add, smul_add, e, e, e]
    noncomm_ring
  have := h4 (blade A ℤ a) (blade A ℤ b) (blade A ℤ c)
  rw [comm_blade_cast hb hc, comm_blade_cast hc ha, comm_blade_cast ha hb, map_smul, map_smul, map_smul, comm_blade_cast ha (xor_lt hb hc),
    comm_blade_cast hb (xor_lt hc ha), comm_blade_cast hc (xor_lt ha hb)] at this
  have e1 : b ^^^ (c ^^^ a) = a ^^^ (b ^^^ c) := by rw [← Nat.xor_assoc, Nat.xor_comm]
  have e2 : c ^^^ (a ^^^ b) = a ^^^ (b ^^^ c) := by rw [Nat.xor_comm, Nat.xor_assoc]
  rw [e1, e2] at this
  have hlt : a ^^^ (b ^^^ c) < 2 ^ A.n := xor_lt ha (xor_lt hb hc)
  have := congrArg (coef A ℤ (a ^^^ (b ^^^ c))) this
  simp only [map_smul, map_add, coef_blade _ _ hlt, if_true, map_zero, smul_eq_mul, mul_one, Int.cast_id] at this
  linarith

theorem jacobi (hA : WfAlg A) (x y z : Cl A R) : comm A R x (comm A R y z) + comm A R y (comm A R z x) + comm A R z (comm A R x y) = 0 := by
  -- linearity in each argument reduces to blades
  let T : Cl A R →ₗ[R] Cl A R →ₗ[R] Cl A R →ₗ[R] Cl A R :=
    LinearMap.mk₂ R (fun u v => (comm A R u).comp (comm A R v) + (comm A R v).comp ((comm A R).flip u) + (comm A R).flip (comm A R u v))
      (by intro u u' v; ext w; simp; abel) (by intro r u v; ext w; simp) (by intro u v v'; ext w; simp; abel) (by intro r u v; ext w; simp)
  have hT : ∀ u v w, T u v w = comm A R u (comm A R v w) + comm A R v (comm A R w u) + comm A R w (comm A R u v) := by
    intro u v w; rfl
  have hB : ∀ a < 2 ^ A.n, ∀ b < 2 ^ A.n, ∀ c < 2 ^ A.n, T (blade A R a) (blade A R b) (blade A R c) = 0 := by
    intro a ha b hb c hc
    rw [hT]
    rw [comm_blade_cast hb hc, comm_blade_cast hc ha, comm_blade_cast ha hb, map_smul, map_smul, map_smul, comm_blade_cast ha (xor_lt hb hc),
      comm_blade_cast hb (xor_lt hc ha), comm_blade_cast hc (xor_lt ha hb)]
    have e1 : b ^^^ (c ^^^ a) = a ^^^ (b ^^^ c) := by rw [← Nat.xor_assoc, Nat.xor_comm]
    have e2 : c ^^^ (a ^^^ b) = a ^^^ (b ^^^ c) := by rw [Nat.xor_comm, Nat.xor_assoc]
    rw [e1, e2, smul_smul, smul_smul, smul_smul, ← add_smul, ← add_smul, ← Int.cast_mul, ← Int.cast_mul, ← Int.cast_mul, ← Int.cast_add,
      ← Int.cast_add, jacobi_int hA ha hb hc]
    simp
  have h1 : ∀ a < 2 ^ A.n, ∀ b < 2 ^ A.n, T (blade A R a) (blade A R b) = 0 := fun a ha b hb => lin_ext fun c hc => hB a ha b hb c hc
  have h2 : ∀ a < 2 ^ A.n, ∀ w, (T (blade A R a)).flip w = 0 := fun a ha w => lin_ext fun b hb => by
    rw [LinearMap.flip_apply, h1 a ha b hb]; rfl
  have h3 : ∀ v w, (T.flip v).flip w = 0 := fun v w => lin_ext fun a ha => by
    rw [LinearMap.flip_apply, LinearMap.flip_apply, ← LinearMap.flip_apply (T (blade A R a)), h2 a ha w]; rfl
  rw [← hT, ← LinearMap.flip_apply T, ← LinearMap.flip_apply, h3]; rfl

/-- Blades that share an odd number of basis vectors: the commutator with a bivector keeps the grade. -/
theorem comm_bivector_blade (hA : WfAlg A) {a c : Nat} (ha : a < 2 ^ A.n) (h2 : popcount a = 2) :
    popcount (a ^^^ c) = popcount c ∨ halfSign (sgn A) (-1) a c = 0 := by
  have h2' : pc A.n a = 2 := by rw [← popcount_of_lt hA.le32 ha]; exact h2
  have hx := popcount_xor a c
  have hand : popcount (a &&& c) = pc A.n (a &&& c) := popcount_of_lt hA.le32 (and_lt ha c)
  have hi := inv_add A.n a c
  by_cases hodd : pc A.n (a &&& c) % 2 = 1
  · left
    have : pc A.n (a &&& c) ≤ pc A.n a := by
      unfold pc
      apply Finset.sum_le_sum
      intro i _
      rw [Nat.testBit_and]
      cases a.testBit i <;> cases c.testBit i <;> decide
    omega
  · right
    have hp : (inv A.n a c) % 2 = (inv A.n c a) % 2 := by
      rw [h2'] at hi; omega
    have hs : sgn A c a = sgn A a c := by
      unfold sgn
      rw [Nat.and_comm c a, pow_add, pow_add, neg_one_pow_eq_iff.2 hp]
    have := halfSign_two (s := -1) (Or.inr rfl) (sgn_swap A a c)
    rw [hs] at this
    omega

theorem comm_grade (hA : WfAlg A) {x y : Cl A R} {k : Nat} (hx : gradePart A R 2 x = x) (hy : gradePart A R k y = y) :
    gradePart A R k (comm A R x y) = comm A R x y := by
  have : ((comm A R).compl₁₂ (gradePart A R 2) (gradePart A R k)).compr₂ (gradePart A R k) =
      (comm A R).compl₁₂ (gradePart A R 2) (gradePart A R k) := by
    apply lin_ext₂
    intro a ha c hc
    rw [LinearMap.compr₂_apply, LinearMap.compl₁₂_apply, gradePart_blade _ ha, gradePart_blade _ hc]
    by_cases h2 : popcount a = 2
    · by_cases hk : popcount c = k
      · rw [if_pos h2, if_pos hk, comm_blade_cast ha hc, map_smul, gradePart_blade _ (xor_lt ha hc)]
        rcases comm_bivector_blade hA ha (c := c) h2 with h | h
        · rw [if_pos (by omega)]
        · rw [h]; simp
      · rw [if_neg hk]; simp
    · rw [if_neg h2]; simp
  have := LinearMap.congr_fun₂ this x y
  rwa [LinearMap.compr₂_apply, LinearMap.compl₁₂_apply, hx, hy] at this

end Verif
