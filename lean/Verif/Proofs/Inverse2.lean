import Verif.Proofs.Inverse
import Mathlib.Tactic.NoncommRing
import Mathlib.Tactic.LinearCombination
/-! # Correctness and termination of `inverse` in dimension below six -/
namespace Verif
open Model Spec Model.Factory Props

variable {A : Alg} {R : Type} [Field R] [DecidableEq R]

/-- A call that should return a right inverse of `x` does so, or divides by zero. -/
def Works (A : Alg) {R : Type} [Field R] (x : Cl A R) (r : Except Fail (MV R)) : Prop :=
  (∃ y, r = .ok y ∧ WfMV A y ∧ x * val A y = 1) ∨ r = .error .divZero

theorem lift_some {α : Type} (a : α) : lift (some a) = .ok a := rfl

theorem denote_div {S : SubSpace} (v : List R) (c : R) : denote A R S (v.map (· / c)) = c⁻¹ • denote A R S v := by
  obtain ⟨bs⟩ := S
  simp only [denote]
  induction bs generalizing v with
  | nil => simp
  | cons b bs ih =>
    cases v with
    | nil => simp
    | cons a v =>
      simp only [List.map_cons, List.zipWith_cons_cons, List.sum_cons, smul_add, ih]
      rw [smul_smul, div_eq_inv_mul]

theorem val_scalar {p : MV R} (hp : WfMV A p) (hs : p.sub = ⟨[0]⟩) : ∃ c, p.vals = [c] ∧ val A p = c • (1 : Cl A R) := by
  obtain ⟨S, v⟩ := p
  simp only at hs
  subst hs
  have := hp.len
  simp only [List.length_singleton] at this
  obtain ⟨c, rfl⟩ := List.length_eq_one_iff.1 this
  exact ⟨c, rfl, by simp [val, denote, blade_zero]⟩

theorem divValues_spec {q p : MV R} (hq : WfMV A q) {c : R} (hc : p.vals = [c]) (h0 : c = 0 → q.vals = []) :
    ∃ y, q.divValues p = .ok y ∧ WfMV A y ∧ y.sub = q.sub ∧ val A y = c⁻¹ • val A q := by
  refine ⟨⟨q.sub, q.vals.map (· / c)⟩, ?_, ⟨hq.sub, by simp [hq.len]⟩, rfl, denote_div _ _⟩
  rw [MV.divValues, hc]
  simp only
  rw [if_neg (fun h => h.2 (h0 h.1)), MV.copy, MV.construct, if_pos (by simp [hq.len])]
  rfl

theorem divideWith_works (hA : WfAlg A) {inv : MV R → Except Fail (MV R)} {q p : MV R} (hq : WfMV A q) (hp : WfMV A p) (hne : q.vals ≠ [])
    {x : Cl A R} (e : val A p = x * val A q) (h : p.sub ≠ ⟨[0]⟩ → Works A (val A p) (inv p)) :
    Works A x (q.divideWith A inv p) := by
  rw [MV.divideWith, (scalar_eq hA).1, lift_some]
  simp only [bind, Except.bind]
  split_ifs with hs
  · obtain ⟨c, hc, hv⟩ := val_scalar hp hs
    by_cases h0 : c = 0
    · right
      rw [MV.divValues, hc]
      simp only
      rw [if_pos ⟨h0, hne⟩]
    · left
      obtain ⟨y, y1, y2, _, y3⟩ := divValues_spec hq hc (fun h => absurd h h0)
      refine ⟨y, y1, y2, ?_⟩
      rw [y3, mul_smul_comm, ← e, hv, smul_smul, inv_mul_cancel₀ h0, one_smul]
  · rcases h hs with ⟨i, i1, i2, i3⟩ | i1
    · left
      obtain ⟨y, y1, y2, y3⟩ := product_gives hA hq i2
      exact ⟨y, by rw [i1]; simp only [y1]; rfl, y2, by rw [y3, ← mul_assoc, ← e, i3]⟩
    · right
      rw [i1]

theorem involution_works (hA : WfAlg A) {inv : MV R → Except Fail (MV R)} {x : MV R} {v : Cl A R} {T : SubSpace} {q p : Option (MV R)}
    (hx : WfMV A x) (hq : GivesIn A q x.sub v) (hp : GivesIn A p T (val A x * v)) (hne : x.vals ≠ [])
    (hinv : ∀ p, WfMV A p → p.sub = T → T ≠ ⟨[0]⟩ → Works A (val A p) (inv p)) :
    Works A (val A x) (do (← lift q).divideWith A inv (← lift p)) := by
  obtain ⟨q, rfl, q2, q3, q4⟩ := hq
  obtain ⟨p, rfl, p2, p3, p4⟩ := hp
  refine divideWith_works hA q3 p3 ?_ (by rw [p4, q4]) fun hs => hinv p p3 p2 (p2 ▸ hs)
  intro h
  have := q3.len
  rw [h, q2] at this
  apply hne
  rw [← List.length_eq_zero_iff, hx.len, ← this]
  rfl

theorem un_givesIn {f : Arg Int → Option (Operator Int)} {L : ∀ (R : Type) [CommRing R], Cl A R → Cl A R} (h : UnSem A f L)
    {x : MV R} (hx : WfMV A x) (ho : ∀ op, f (.sub x.sub) = some op → op.output = x.sub) :
    GivesIn A (MV.call (f (.sub x.sub)) [x]) x.sub (L R (val A x)) := GivesIn.of_call (un_gives h hx) ho

theorem self_givesIn {f : Arg Int → Option (Operator Int)} {x : MV R} {v : Cl A R} {T : SubSpace} (h : Gives A (MV.call (f (.sub x.sub)) [x, x]) v)
    (hT : (f (.sub x.sub)).map (·.output) = some T) : GivesIn A (MV.call (f (.sub x.sub)) [x, x]) T v :=
  GivesIn.of_call h fun op ho => by rw [ho] at hT; exact Option.some_inj.1 hT

theorem bind_true {α : Type} {o : Option α} {f : α → Option Bool} (h : (do f (← o)) = some true) : ∃ a, o = some a ∧ f a = some true := by
  cases o with
  | none => cases h
  | some a => exact ⟨a, rfl, h⟩

omit [DecidableEq R] in
theorem sn_injective {x : Cl A R} (h : 2 • gradePart A R 0 x - x = 0) : x = 0 := by
  apply ext_coef
  intro b hb
  have := congrArg (coef A R b) h
  rw [map_sub, map_nsmul, gradePart_eq_proj, coef_proj, map_zero] at this
  rw [map_zero]
  split_ifs at this with h0
  · rw [nsmul_eq_mul] at this; linear_combination this
  · rw [smul_zero, zero_sub] at this; exact neg_eq_zero.1 this

omit [DecidableEq R] in
theorem ps_injective (hA : WfAlg A) {x : Cl A R} (h : 2 • (gradePart A R 0 x + gradePart A R A.n x) - x = 0) : x = 0 := by
  have hpos := hA.pos
  apply ext_coef
  intro b hb
  have := congrArg (coef A R b) h
  rw [map_sub, map_nsmul, map_add, gradePart_eq_proj, gradePart_eq_proj, coef_proj, coef_proj, map_zero] at this
  rw [map_zero]
  split_ifs at this with h0 h1 h1
  · omega
  · rw [nsmul_eq_mul] at this; linear_combination this
  · rw [nsmul_eq_mul] at this; linear_combination this
  · rw [add_zero, smul_zero, zero_sub] at this; exact neg_eq_zero.1 this

/-- Each of the rules divides an involution of `x` by its product with `x`. -/
theorem rule_unpack (hA : WfAlg A) {j : Nat} {c : SubSpace → Option Bool} {rule : InvRule} (hm : (c, rule) ∈ simplifyInverses A j)
    {x : MV R} (hx : WfMV A x) (hc : c x.sub = some true) :
    ∃ (v : Cl A R) (T : SubSpace) (q p : Option (MV R)), GivesIn A q x.sub v ∧ GivesIn A p T (val A x * v) ∧
      SubSpace.isNSimple A j T = some true ∧ (v = 0 → val A x = 0) ∧
      (rule ∈ [InvRule.squared, .reverse] → IsUnit (val A x) → IsUnit v) ∧
      ∀ inv, MV.runInverse A inv x rule = (do (← lift q).divideWith A inv (← lift p)) := by
  obtain ⟨h0, h1, h2, h3, h4, h5⟩ := C38_values hA hx
  have wa : WfArg (K := Int) A (.sub x.sub) := hx.sub
  have hrev : Function.Injective (CliffordAlgebra.reverse : Cl A R →ₗ[R] Cl A R) := CliffordAlgebra.reverse_involutive.injective
  have hinv : Function.Injective (CliffordAlgebra.involute : Cl A R →ₐ[R] Cl A R) := CliffordAlgebra.involute_involutive.injective
  simp only [simplifyInverses, List.mem_cons, List.not_mem_nil, or_false, Prod.mk.injEq] at hm
  rcases hm with ⟨rfl, rfl⟩ | ⟨rfl, rfl⟩ | ⟨rfl, rfl⟩ | ⟨rfl, rfl⟩ | ⟨rfl, rfl⟩ | ⟨rfl, rfl⟩
  · obtain ⟨T, t1, t2⟩ := bind_true hc
    exact ⟨_, T, some x, _, ⟨x, rfl, rfl, hx, rfl⟩, self_givesIn h0 t1, t2, id, fun _ => id, fun _ => rfl⟩
  · obtain ⟨T, t1, t2⟩ := bind_true hc
    refine ⟨_, T, _, _, un_givesIn (reverse_un hA) hx fun _ h => reverse_output wa h, self_givesIn h1 t1, t2, ?_, ?_, fun _ => rfl⟩
    · intro h; exact hrev (by rw [h, map_zero])
    · rintro _ ⟨u, hu⟩
      have e1 := congrArg CliffordAlgebra.reverse u.mul_inv
      have e2 := congrArg CliffordAlgebra.reverse u.inv_mul
      rw [CliffordAlgebra.reverse.map_mul, CliffordAlgebra.reverse.map_one, hu] at e1 e2
      exact ⟨⟨_, _, e2, e1⟩, rfl⟩
  · obtain ⟨T, t1, t2⟩ := bind_true hc
    exact ⟨_, T, _, _, un_givesIn (conjugate_un hA) hx fun _ h => conjugate_output hA (argSem_sub hx.sub) h,
      self_givesIn h3 t1, t2, fun h => hrev (hinv (by rw [h, map_zero, map_zero])), by simp, fun _ => rfl⟩
  · obtain ⟨T, t1, t2⟩ := bind_true hc
    exact ⟨_, T, _, _, un_givesIn (scalarNegation_un hA) hx fun _ h => scalarNegation_output wa h,
      self_givesIn h4 t1, t2, sn_injective, by simp, fun _ => rfl⟩
  · obtain ⟨T, t1, t2⟩ := bind_true hc
    refine ⟨_, T, _, _, un_givesIn (pseudoscalarNegation_un hA) hx fun _ h => pseudoscalarNegation_output wa h,
      self_givesIn ?_ t1, t2, ?_, by simp, fun _ => rfl⟩
    · refine h5.congr ?_
      rw [if_neg (by have := hA.pos; omega)]
    · rw [if_neg (by have := hA.pos; omega)]
      exact ps_injective hA
  · obtain ⟨T, t1, t2⟩ := bind_true hc
    exact ⟨_, T, _, _, un_givesIn (involute_un hA) hx fun _ h => involute_output wa h,
      self_givesIn h2 t1, t2, fun h => hinv (by rw [h, map_zero]), by simp, fun _ => rfl⟩

theorem simplify_works (hA : WfAlg A) {j : Nat} {c : SubSpace → Option Bool} {rule : InvRule} (hm : (c, rule) ∈ simplifyInverses A j)
    {x : MV R} (hx : WfMV A x) (hne : x.vals ≠ []) (hc : c x.sub = some true) {inv : MV R → Except Fail (MV R)}
    (hinv : ∀ p, WfMV A p → SubSpace.isNSimple A j p.sub = some true → p.sub ≠ ⟨[0]⟩ → Works A (val A p) (inv p)) :
    Works A (val A x) (MV.runInverse A inv x rule) := by
  obtain ⟨v, T, q, p, h1, h2, h3, _, _, h4⟩ := rule_unpack hA hm hx hc
  rw [h4]
  exact involution_works hA hx h1 h2 hne fun p hp e hs => hinv p hp (e ▸ h3) (e ▸ hs)

/-! ### the special cases for bivectors and trivectors -/

theorem gradePart_of (hA : WfAlg A) {k : Nat} {y : Cl A R}
    (h : ∀ b < 2 ^ A.n, popcount b ≠ k → coef A R b y = 0) : gradePart A R k y = y := by
  rw [gradePart_eq_proj]
  apply ext_coef
  intro b hb
  rw [coef_proj]
  split_ifs with hk
  · rfl
  · exact (h b hb hk).symm

theorem neg_one_pow_mod {S : Type*} [Ring S] (k : Nat) : (-1 : S) ^ k = if k % 2 = 0 then 1 else -1 := by
  split_ifs with h
  · exact (Nat.even_iff.2 h).neg_one_pow
  · exact (Nat.odd_iff.2 (by omega)).neg_one_pow

/-- The inverse of `b` is `b` divided by its square; it has the symmetries of `b`. -/
theorem special_inverse (hA : WfAlg A) (h5 : A.n ≤ 5) (h2 : (2 : R) ≠ 0) {b c : Cl A R} (e : b * b * c = 1)
    (hr : CliffordAlgebra.reverse b = -b) :
    (CliffordAlgebra.involute b = b → gradePart A R 2 (b * c) = b * c) ∧
    (CliffordAlgebra.involute b = -b → gradePart A R 3 (b * c) = b * c) := by
  have e' : c * (b * b) = 1 := mul_eq_one_comm.1 e
  have hc : CliffordAlgebra.reverse c = c := by
    have : CliffordAlgebra.reverse c * (b * b) = 1 := by
      have := congrArg CliffordAlgebra.reverse e
      rw [CliffordAlgebra.reverse.map_mul, CliffordAlgebra.reverse.map_mul, hr, CliffordAlgebra.reverse.map_one] at this
      simpa using this
    calc CliffordAlgebra.reverse c = CliffordAlgebra.reverse c * (b * b * c) := by rw [e, mul_one]
      _ = c := by rw [← mul_assoc, this, one_mul]
  have hcom : b * c = c * b := by
    calc b * c = c * (b * b) * (b * c) := by rw [e', one_mul]
      _ = c * b * (b * b * c) := by noncomm_ring
      _ = c * b := by rw [e, mul_one]
  have hy : CliffordAlgebra.reverse (b * c) = -(b * c) := by
    rw [CliffordAlgebra.reverse.map_mul, hr, hc, mul_neg, hcom]
  have hci : ∀ s : Cl A R, (CliffordAlgebra.involute b) * (CliffordAlgebra.involute b) = b * b → CliffordAlgebra.involute c = c := by
    intro _ hb
    have : b * b * CliffordAlgebra.involute c = 1 := by
      rw [← hb, ← map_mul, ← map_mul, e, map_one]
    calc CliffordAlgebra.involute c = c * (b * b) * CliffordAlgebra.involute c := by rw [e', one_mul]
      _ = c := by rw [mul_assoc, this, mul_one]
  have key : ∀ a : R, -a = a → a = 0 := by
    intro a ha
    have : (2 : R) * a = 0 := by rw [two_mul]; nth_rewrite 1 [← ha]; simp
    exact (mul_eq_zero.1 this).resolve_left h2
  have hmod : ∀ d < 2 ^ A.n, coef A R d (b * c) ≠ 0 → popcount d / 2 % 2 = 1 := by
    intro d hd hne
    by_contra hcon
    have := coef_reverse hA R hd (b * c)
    rw [hy, map_neg, neg_one_pow_mod, if_pos (by omega), one_mul] at this
    exact hne (key _ this)
  constructor
  · intro hb
    have hyi : CliffordAlgebra.involute (b * c) = b * c := by rw [map_mul, hb, hci 0 (by rw [hb])]
    apply gradePart_of hA
    intro d hd hk
    by_contra hne
    have h1 := hmod d hd hne
    have h3 := popcount_le hA.le32 hd
    have := coef_involute hA R hd (b * c)
    rw [hyi, neg_one_pow_mod, if_neg (by omega), neg_one_mul] at this
    exact hne (key _ this.symm)
  · intro hb
    have hyi : CliffordAlgebra.involute (b * c) = -(b * c) := by rw [map_mul, hb, hci 0 (by rw [hb, neg_mul_neg]), neg_mul]
    apply gradePart_of hA
    intro d hd hk
    by_contra hne
    have h1 := hmod d hd hne
    have h3 := popcount_le hA.le32 hd
    have := coef_involute hA R hd (b * c)
    rw [hyi, map_neg, neg_one_pow_mod, if_pos (by omega), one_mul] at this
    exact hne (key _ this)

theorem reverse_homogeneous (hA : WfAlg A) {x : MV R} (hx : WfMV A x) {k : Nat} (h : Homogeneous k x) :
    CliffordAlgebra.reverse (val A x) = ((-1 : R) ^ (k / 2)) • val A x ∧ CliffordAlgebra.involute (val A x) = ((-1 : R) ^ k) • val A x := by
  constructor
  · refine map_val_eq (x := x) CliffordAlgebra.reverse (((-1 : R) ^ (k / 2)) • LinearMap.id) fun b hb => ?_
    rw [reverse_blade, ← popcount_of_lt hA.le32 (hx.sub.lt b hb), h b hb]; rfl
  · refine map_val_eq (x := x) CliffordAlgebra.involute.toLinearMap (((-1 : R) ^ k) • LinearMap.id) fun b hb => ?_
    rw [AlgHom.toLinearMap_apply, involute_blade, ← popcount_of_lt hA.le32 (hx.sub.lt b hb), h b hb]; rfl

theorem trivectorProduct_gives (hA : WfAlg A) (h3 : 3 ≤ A.n) {x y : MV R} (hx : WfMV A x) (hy : WfMV A y) :
    Gives A (x.trivectorProduct A y) (gradePart A R 3 (val A x * val A y)) := by
  obtain ⟨S, s1, s2, s3⟩ := kVector_isSpace hA (g := 3) (k := 3) ⟨h3, Or.inl rfl⟩
  rw [MV.trivectorProduct, s1]
  refine (call_gives2 (nProduct_sem hA (argSem_sub hx.sub) (argSem_sub hy.sub) s2) hx hy ⟨trivial, trivial⟩).congr ?_
  rw [gradePart_eq_proj]
  exact proj_congr (fun b hb => by rw [s3]; exact ⟨fun h => h.2, fun h => ⟨hb, h⟩⟩) _

theorem neg_gives {x : MV R} (hx : WfMV A x) : Gives A x.neg (- val A x) := by
  refine ⟨⟨x.sub, x.vals.map (- ·)⟩, ?_, ⟨hx.sub, by simp [hx.len]⟩, denote_neg _⟩
  rw [MV.neg, MV.copy, MV.construct, if_pos (by simp [hx.len])]

theorem exists_mod4 (hA : WfAlg A) : ∃ U, WfSub A U ∧ ∀ b, b ∈ U.blades ↔ b < 2 ^ A.n ∧ pc A.n b % 4 = 0 := by
  obtain ⟨U, _, u2, u3⟩ := fromBlades_some hA (l := (List.range (2 ^ A.n)).filter fun b => pc A.n b % 4 = 0) (by
    intro b hb; simpa using (List.mem_filter.1 hb).1) (List.nodup_range.filter _)
  refine ⟨U, u2, fun b => ?_⟩
  rw [u3]
  simp

theorem bivector_front (hA : WfAlg A) (h5 : A.n ≤ 5) {x : MV R} (hx : WfMV A x) (hk : ∀ b ∈ x.sub.blades, popcount b = 2) :
    CliffordAlgebra.reverse (val A x) = - val A x ∧ CliffordAlgebra.involute (val A x) = val A x ∧
    ∃ p, x.symmetricReverse A = some p ∧ WfMV A p ∧ SubSpace.isNSimple A 1 p.sub = some true ∧ val A p = -(val A x * val A x) := by
  have hk' : ∀ b ∈ x.sub.blades, pc A.n b = 2 := fun b hb => by rw [← popcount_of_lt hA.le32 (hx.sub.lt b hb), hk b hb]
  obtain ⟨U, u1, u2⟩ := exists_mod4 hA
  obtain ⟨T, t1, t2, t3⟩ := rev_sub hA hx.sub u1 (by
    intro a ha c hc h
    rw [u2]
    exact ⟨xor_lt (hx.sub.lt a ha) (hx.sub.lt c hc), pair_biv _ h5 _ (hx.sub.lt a ha) _ (hx.sub.lt c hc) ⟨hk' a ha, hk' c hc, h⟩⟩)
  obtain ⟨_, h1, _⟩ := C38_values hA hx
  obtain ⟨p, p1, p2, p3, p4⟩ := self_givesIn h1 t1
  have hs := nsimple_mod4 hA h5 t2 (fun b hb => ((u2 b).1 (t3 b hb)).2) 0
  obtain ⟨hr, hi⟩ := reverse_homogeneous hA hx hk
  norm_num at hr hi
  exact ⟨hr, hi, p, p1, p3, p2 ▸ hs, by rw [p4, hr, mul_neg]⟩

theorem trivector_front (hA : WfAlg A) (h5 : A.n ≤ 5) {x : MV R} (hx : WfMV A x) (hk : ∀ b ∈ x.sub.blades, popcount b = 3) :
    CliffordAlgebra.reverse (val A x) = - val A x ∧ CliffordAlgebra.involute (val A x) = - val A x ∧
    ∃ p, x.squared A = some p ∧ WfMV A p ∧ SubSpace.isNSimple A 1 p.sub = some true ∧ val A p = val A x * val A x := by
  have hk' : ∀ b ∈ x.sub.blades, pc A.n b = 3 := fun b hb => by rw [← popcount_of_lt hA.le32 (hx.sub.lt b hb), hk b hb]
  obtain ⟨U, u1, u2⟩ := exists_mod4 hA
  obtain ⟨T, t1, t2, t3⟩ := sq_sub hA hx.sub u1 (by
    intro a ha c hc h
    rw [u2]
    exact ⟨xor_lt (hx.sub.lt a ha) (hx.sub.lt c hc), pair_tri _ h5 _ (hx.sub.lt a ha) _ (hx.sub.lt c hc) ⟨hk' a ha, hk' c hc, h⟩⟩)
  obtain ⟨h1, _⟩ := C38_values hA hx
  obtain ⟨p, p1, p2, p3, p4⟩ := self_givesIn h1 t1
  have hs := nsimple_mod4 hA h5 t2 (fun b hb => ((u2 b).1 (t3 b hb)).2) 0
  obtain ⟨hr, hi⟩ := reverse_homogeneous hA hx hk
  norm_num [pow_succ] at hr hi
  exact ⟨hr, hi, p, p1, p3, p2 ▸ hs, p4⟩

theorem bivector_run (hA : WfAlg A) (hn : 2 ≤ A.n) {x p i : MV R} {inv : MV R → Except Fail (MV R)} (hx : WfMV A x)
    (hp : x.symmetricReverse A = some p) (hi : inv p = .ok i) (wi : WfMV A i) :
    ∃ y, MV.runInverse A inv x .bivector = .ok y ∧ WfMV A y ∧ val A y = gradePart A R 2 (val A x * - val A i) := by
  obtain ⟨j, j1, j2, j3⟩ := neg_gives wi
  obtain ⟨y, y1, y2, y3⟩ := (C30_graded hA hx j2).2.2.2.2.2 hn
  refine ⟨y, ?_, y2, by rw [y3, j3]⟩
  simp only [MV.runInverse, bind, Except.bind, hp, hi, j1, lift_some, y1]

theorem trivector_run (hA : WfAlg A) (hn : 3 ≤ A.n) {x p i : MV R} {inv : MV R → Except Fail (MV R)} (hx : WfMV A x)
    (hp : x.squared A = some p) (hi : inv p = .ok i) (wi : WfMV A i) :
    ∃ y, MV.runInverse A inv x .trivector = .ok y ∧ WfMV A y ∧ val A y = gradePart A R 3 (val A x * val A i) := by
  obtain ⟨y, y1, y2, y3⟩ := trivectorProduct_gives hA hn hx wi
  refine ⟨y, ?_, y2, y3⟩
  simp only [MV.runInverse, bind, Except.bind, hp, hi, lift_some, y1]

theorem bivector_works (hA : WfAlg A) (h5 : A.n ≤ 5) (h2 : (2 : R) ≠ 0) (hn : 2 ≤ A.n) {x : MV R} (hx : WfMV A x)
    (hk : ∀ b ∈ x.sub.blades, popcount b = 2) {inv : MV R → Except Fail (MV R)}
    (hinv : ∀ p, WfMV A p → SubSpace.isNSimple A 1 p.sub = some true → Works A (val A p) (inv p)) :
    Works A (val A x) (MV.runInverse A inv x .bivector) := by
  obtain ⟨hr, hi, p, p1, p3, p2, p4⟩ := bivector_front hA h5 hx hk
  rcases hinv p p3 p2 with ⟨i, i1, i2, i3⟩ | i1
  · left
    rw [p4] at i3
    have e : val A x * val A x * -val A i = 1 := by rw [mul_neg, ← i3, neg_mul]
    have hg := (special_inverse hA h5 h2 e hr).1 hi
    obtain ⟨y, y1, y2, y3⟩ := bivector_run hA hn hx p1 i1 i2
    exact ⟨y, y1, y2, by rw [y3, hg, ← mul_assoc, e]⟩
  · right
    simp only [MV.runInverse, bind, Except.bind, p1, lift_some, i1]

theorem trivector_works (hA : WfAlg A) (h5 : A.n ≤ 5) (h2 : (2 : R) ≠ 0) (hn : 3 ≤ A.n) {x : MV R} (hx : WfMV A x)
    (hk : ∀ b ∈ x.sub.blades, popcount b = 3) {inv : MV R → Except Fail (MV R)}
    (hinv : ∀ p, WfMV A p → SubSpace.isNSimple A 1 p.sub = some true → Works A (val A p) (inv p)) :
    Works A (val A x) (MV.runInverse A inv x .trivector) := by
  obtain ⟨hr, hi, p, p1, p3, p2, p4⟩ := trivector_front hA h5 hx hk
  rcases hinv p p3 p2 with ⟨i, i1, i2, i3⟩ | i1
  · left
    rw [p4] at i3
    have hg := (special_inverse hA h5 h2 i3 hr).2 hi
    obtain ⟨y, y1, y2, y3⟩ := trivector_run hA hn hx p1 i1 i2
    exact ⟨y, y1, y2, by rw [y3, hg, ← mul_assoc, i3]⟩
  · right
    simp only [MV.runInverse, bind, Except.bind, p1, lift_some, i1]

/-! ### dispatch -/

theorem matchLoop_prefix {K F : Type} (k : K) {c : K → Option Bool} {f : F} {l1 l2 : List ((K → Option Bool) × F)}
    (h1 : ∀ o ∈ l1, o.1 k ≠ none) (h2 : c k = some true) :
    ∃ o ∈ l1 ++ [(c, f)], o.1 k = some true ∧ Dispatch.matchLoop k (l1 ++ (c, f) :: l2) = some o.2 := by
  induction l1 with
  | nil => exact ⟨(c, f), by simp, h2, by simp [Dispatch.matchLoop, h2]⟩
  | cons o l1 ih =>
    obtain ⟨g, f'⟩ := o
    match hg : g k with
    | none => exact absurd hg (h1 (g, f') (by simp))
    | some true => exact ⟨(g, f'), by simp, hg, by simp [Dispatch.matchLoop, hg]⟩
    | some false =>
      obtain ⟨o, o1, o2, o3⟩ := ih fun o ho => h1 o (by simp [ho])
      exact ⟨o, by simp only [List.cons_append, List.mem_cons]; exact Or.inr o1, o2, by simp [Dispatch.matchLoop, hg, o3]⟩

theorem conditions_defined (hA : WfAlg A) {S : SubSpace} (hS : WfSub A S) (j : Nat) : ∀ o ∈ simplifyInverses A j, o.1 S ≠ none := by
  have key : ∀ {f : SubSpace → Option SubSpace} {L : LinMap A}, SelfSem A f L → (do SubSpace.isNSimple A j (← f S)) ≠ none := by
    intro f L h
    obtain ⟨T, t1, t2, _⟩ := h S hS
    obtain ⟨r, r1, _⟩ := isNSimple_spec hA j t2
    rw [t1, Option.bind_eq_bind, Option.bind_some, r1]
    simp
  intro o ho
  simp only [simplifyInverses, List.mem_cons, List.not_mem_nil, or_false] at ho
  rcases ho with rfl | rfl | rfl | rfl | rfl | rfl
  · exact key (squared_self hA)
  · exact key (symmetricReverse_self hA)
  · exact key (symmetricConjugate_self hA)
  · exact key (symmetricScalarNegation_self hA)
  · exact key (symmetricPseudoscalarNegation_self hA)
  · exact key (symmetricInvolute_self hA)

theorem anyM_true {α : Type} {l : List α} {f : α → Option Bool} (h : l.anyM f = some true) : ∃ x ∈ l, f x = some true := by
  induction l with
  | nil => cases h
  | cons a l ih =>
    rw [List.anyM] at h
    match hf : f a with
    | none => rw [hf] at h; cases h
    | some true => exact ⟨a, by simp, hf⟩
    | some false =>
      rw [hf] at h
      obtain ⟨x, hx, h'⟩ := ih h
      exact ⟨x, by simp [hx], h'⟩

theorem condition_exists {S : SubSpace} {j : Nat} (h : SubSpace.isNSimple A (j + 1) S = some true) :
    ∃ o ∈ simplifyInverses A j, o.1 S = some true := by
  rw [SubSpace.isNSimple] at h
  obtain ⟨f, f1, f2⟩ := anyM_true h
  simp only [SubSpace.selfProducts, List.mem_cons, List.not_mem_nil, or_false] at f1
  rcases f1 with rfl | rfl | rfl | rfl | rfl | rfl
  · exact ⟨(SubSpace.isSquaredSimple A j, .squared), by simp [simplifyInverses], f2⟩
  · exact ⟨(SubSpace.isReverseSimple A j, .reverse), by simp [simplifyInverses], f2⟩
  · exact ⟨(SubSpace.isInvoluteSimple A j, .involute), by simp [simplifyInverses], f2⟩
  · exact ⟨(SubSpace.isConjugateSimple A j, .conjugate), by simp [simplifyInverses], f2⟩
  · exact ⟨(SubSpace.isScalarNegationSimple A j, .scalarNegation), by simp [simplifyInverses], f2⟩
  · exact ⟨(SubSpace.isPseudoscalarNegationSimple A j, .pseudoscalarNegation), by simp [simplifyInverses], f2⟩

theorem empty_eq (hA : WfAlg A) : A.empty = some ⟨[]⟩ := by
  obtain ⟨S, s1, s2, s3⟩ := (C14_named hA).2.2.2.2.2.2.2.2.2.2.2.1
  rw [s1]
  obtain ⟨bs⟩ := S
  cases bs with
  | nil => rfl
  | cons b bs => exact absurd ((s3 b).1 (by simp)).2 id

/-- The options for empty and scalar subspaces. -/
def options0 (A : Alg) : List ((SubSpace → Option Bool) × InvRule) :=
  [(fun S => do some (S == (← A.empty)), .empty), (fun S => do some (S == (← A.scalar)), .scalar)]
/-- The special cases for bivectors and trivectors. -/
def optionsS (A : Alg) : List ((SubSpace → Option Bool) × InvRule) :=
  [(fun S => do some ((← A.bivector).contains S), .bivector), (fun S => do some ((← A.trivector).contains S), .trivector)]
/-- The options before those of level `j + 1`. -/
def optionsBefore (A : Alg) (j : Nat) : List ((SubSpace → Option Bool) × InvRule) :=
  match j with
  | 0 => options0 A
  | 1 => options0 A ++ simplifyInverses A 0 ++ optionsS A
  | _ => options0 A ++ simplifyInverses A 0 ++ optionsS A ++ simplifyInverses A 1

theorem options_split {j : Nat} (hj : j ≤ 2) : ∃ l, inverseOptions A = optionsBefore A j ++ (simplifyInverses A j ++ l) := by
  match j with
  | 0 => exact ⟨optionsS A ++ simplifyInverses A 1 ++ simplifyInverses A 2, by simp only [inverseOptions, optionsBefore, options0, optionsS, List.append_assoc]⟩
  | 1 => exact ⟨simplifyInverses A 2, by simp only [inverseOptions, optionsBefore, options0, optionsS, List.append_assoc]⟩
  | 2 => exact ⟨[], by simp only [inverseOptions, optionsBefore, options0, optionsS, List.append_assoc, List.append_nil]⟩

theorem mem_before {j : Nat} {o : (SubSpace → Option Bool) × InvRule} (h : o ∈ optionsBefore A j) :
    o ∈ options0 A ∨ (∃ i < j, o ∈ simplifyInverses A i) ∨ (1 ≤ j ∧ o ∈ optionsS A) := by
  match j with
  | 0 => exact Or.inl h
  | 1 =>
    rcases List.mem_append.1 h with h | h
    · rcases List.mem_append.1 h with h | h
      · exact Or.inl h
      · exact Or.inr (Or.inl ⟨0, by omega, h⟩)
    · exact Or.inr (Or.inr ⟨by omega, h⟩)
  | j + 2 =>
    rcases List.mem_append.1 h with h | h
    · rcases List.mem_append.1 h with h | h
      · rcases List.mem_append.1 h with h | h
        · exact Or.inl h
        · exact Or.inr (Or.inl ⟨0, by omega, h⟩)
      · exact Or.inr (Or.inr ⟨by omega, h⟩)
    · exact Or.inr (Or.inl ⟨1, by omega, h⟩)

theorem before_defined (hA : WfAlg A) {S : SubSpace} (hS : WfSub A S) {j : Nat} (hj : j ≤ 2) (h3 : 3 ≤ A.n ∨ j = 0) :
    ∀ o ∈ optionsBefore A j, o.1 S ≠ none := by
  have h0 : ∀ o ∈ optionsBefore A 0, o.1 S ≠ none := by
    intro o ho
    simp only [optionsBefore, options0, List.mem_cons, List.not_mem_nil, or_false] at ho
    rcases ho with rfl | rfl
    · simp [empty_eq hA]
    · simp [(scalar_eq hA).1]
  have h1 : 3 ≤ A.n → ∀ o ∈ optionsBefore A 1, o.1 S ≠ none := by
    intro h3 o ho
    simp only [optionsBefore, optionsS, List.mem_append, List.mem_cons, List.not_mem_nil, or_false] at ho h0
    rcases ho with (ho | ho) | rfl | rfl
    · exact h0 o ho
    · exact conditions_defined hA hS 0 o ho
    · obtain ⟨T, t1, _⟩ := (C14_named hA).2.2.1 (by omega)
      simp [t1]
    · obtain ⟨T, t1, _⟩ := (C14_named hA).2.2.2.1 h3
      simp [t1]
  match j with
  | 0 => exact h0
  | 1 => exact h1 (h3.resolve_right (by omega))
  | 2 =>
    intro o ho
    simp only [optionsBefore] at ho
    rcases List.mem_append.1 ho with ho | ho
    · exact h1 (h3.resolve_right (by omega)) o ho
    · exact conditions_defined hA hS 1 o ho

theorem bin_output (hA : WfAlg A) {f : Arg Int → Arg Int → Option (Operator Int)}
    {B : ∀ (R : Type) [CommRing R], Cl A R → Cl A R → Cl A R} (hf : BinSem A f B) {l r : SubSpace} (hl : WfSub A l) (hr : WfSub A r)
    {op : Operator Int} (h : f (.sub l) (.sub r) = some op) (hs : Squeezed A op) (b : Nat) :
    b ∈ op.output.blades ↔ ∃ a ∈ l.blades, ∃ c ∈ r.blades, coef A ℤ b (B ℤ (blade A ℤ a) (blade A ℤ c)) ≠ 0 := by
  obtain ⟨op', o1, o2, o3, o4⟩ := hf (argSem_sub hl) (argSem_sub hr)
  rw [h, Option.some_inj] at o1
  subst o1
  replace o3 : op.inputs = [l, r] := o3
  have o5 : Computes A op (Cond.triv A) (fun R _ ds => B R ((ds.take 1).headD 0) ((ds.drop 1).headD 0)) :=
    fun R _ xs hx _ => o4 R xs hx ⟨trivial, trivial⟩
  rw [squeezed_out hA hs o5, o3]
  constructor
  · rintro ⟨idx, hidx, hnz⟩
    cases hidx with
    | @cons i _ _ _ h1 h' =>
      cases h' with
      | @cons j _ _ _ h2 h' =>
        cases h'
        exact ⟨_, getD_mem h1, _, getD_mem h2, hnz⟩
  · rintro ⟨a, ha, c, hc, hnz⟩
    obtain ⟨i, hi, rfl⟩ := List.getElem_of_mem ha
    obtain ⟨j, hj, rfl⟩ := List.getElem_of_mem hc
    refine ⟨[i, j], List.Forall₂.cons hi (List.Forall₂.cons hj List.Forall₂.nil), ?_⟩
    simpa [bladesAt, hi, hj] using hnz

theorem product_scalar_sub (hA : WfAlg A) {R : Type} [CommRing R] {x y z : MV R} (hx : x.sub = ⟨[0]⟩) (hy : y.sub = ⟨[0]⟩) (h : x.product A y = some z) : z.sub = ⟨[0]⟩ := by
  rw [MV.product, hx, hy] at h
  obtain ⟨op, o1, _⟩ := product_bin hA (argSem_sub (wf_scalar (A := A))) (argSem_sub (wf_scalar (A := A)))
  rw [o1] at h
  have hsq := product_squeezed hA wf_scalar wf_scalar o1
  have hb := bin_output hA (product_bin hA) wf_scalar wf_scalar o1 hsq
  rw [call_sub h]
  have hnd := (squeezed_wf hA hsq).wf_output.nodup
  generalize op.output = S at hb hnd
  obtain ⟨bs⟩ := S
  have key : ∀ b, b ∈ bs ↔ b = 0 := by
    intro b
    rw [hb]
    simp only [List.mem_singleton, exists_eq_left, blade_zero, mul_one]
    rw [← blade_zero, coef_blade _ _ (by simp)]
    simp [eq_comm]
  match bs, key, hnd with
  | [], key, _ => exact absurd ((key 0).2 rfl) (by simp)
  | [b], key, _ => rw [(key b).1 (by simp)]
  | a :: b :: _, key, hnd => rw [(key a).1 (by simp), (key b).1 (by simp)] at hnd; simp at hnd

/-- What can be used: an option of some level up to `j + 1`, or a special case. -/
theorem dispatch_cases (hA : WfAlg A) {S : SubSpace} (hS : WfSub A S) {j : Nat} (hj : j ≤ 2) (h3 : 3 ≤ A.n ∨ j = 0)
    (h : SubSpace.isNSimple A (j + 1) S = some true) :
    ∃ o, o.1 S = some true ∧ Dispatch.matchLoop S (inverseOptions A) = some o.2 ∧
      (o ∈ options0 A ∨ (∃ i ≤ j, o ∈ simplifyInverses A i) ∨
      (1 ≤ j ∧ o ∈ optionsS A)) := by
  obtain ⟨l, hl⟩ := options_split (A := A) hj
  obtain ⟨⟨c, r⟩, o1, o2⟩ := condition_exists h
  obtain ⟨l1, l2, e⟩ := List.append_of_mem o1
  rw [hl, e, List.append_assoc, List.cons_append, ← List.append_assoc]
  obtain ⟨o, m1, m2, m3⟩ := matchLoop_prefix S (c := c) (f := r) (l1 := optionsBefore A j ++ l1) (l2 := l2 ++ l) (by
    intro o ho
    rcases List.mem_append.1 ho with ho | ho
    · exact before_defined hA hS hj h3 o ho
    · exact conditions_defined hA hS j o (by rw [e]; simp [ho])) o2
  refine ⟨o, m2, m3, ?_⟩
  have hmem : o ∈ optionsBefore A j ∨ o ∈ simplifyInverses A j := by
    rw [e]
    simp only [List.mem_append, List.mem_cons, List.not_mem_nil, or_false] at m1 ⊢
    rcases m1 with (m1 | m1) | m1
    · exact Or.inl m1
    · exact Or.inr (Or.inl m1)
    · exact Or.inr (Or.inr (Or.inl m1))
  rcases hmem with hm | hm
  swap
  · exact Or.inr (Or.inl ⟨j, le_refl _, hm⟩)
  rcases mem_before hm with hm | ⟨i, i1, hm⟩ | hm
  · exact Or.inl hm
  · exact Or.inr (Or.inl ⟨i, by omega, hm⟩)
  · exact Or.inr (Or.inr hm)

theorem inverse_empty (hA : WfAlg A) (fuel : Nat) {x : MV R} (hs : x.sub = ⟨[]⟩) : MV.inverse A (fuel + 1) x = .error .divZero := by
  have hm : Dispatch.matchLoop x.sub (inverseOptions A) = some .empty := by
    rw [inverseOptions, hs]
    simp [Dispatch.matchLoop, empty_eq hA]
  simp only [MV.inverse, hm, MV.runInverse, (scalar_eq hA).1, lift_some]
  simp only [bind, Except.bind]
  have hd : WfMV A (MV.default ⟨[0]⟩ : MV R) := ⟨wf_scalar, by simp [MV.default]⟩
  obtain ⟨z, z1, z2, z3⟩ := (C44_numbers hA hd 0).2.2.2.1
  have hz : z.sub = ⟨[0]⟩ := by
    rw [MV.mul, MV.upcast, (scalar_eq hA).1] at z1
    exact product_scalar_sub hA rfl rfl z1
  rw [z1, lift_some]
  rcases divideWith_works hA (inv := MV.inverse A fuel) hd z2 (by simp [MV.default]) (x := 0) (by rw [z3]; simp) (fun h => absurd hz h) with h | h
  · obtain ⟨y, _, _, h⟩ := h
    rw [zero_mul] at h
    exact absurd (congrArg (coef A R 0) h) (by rw [← blade_zero, coef_blade _ _ (by simp)]; simp)
  · exact h

theorem inverse_scalar (hA : WfAlg A) (fuel : Nat) {x : MV R} (hx : WfMV A x) (hs : x.sub = ⟨[0]⟩) :
    Works A (val A x) (MV.inverse A (fuel + 1) x) := by
  have hm : Dispatch.matchLoop x.sub (inverseOptions A) = some .scalar := by
    rw [inverseOptions, hs]
    simp only [Dispatch.matchLoop, empty_eq hA, (scalar_eq hA).1, List.cons_append, Option.bind_eq_bind, Option.bind_some]
    rfl
  obtain ⟨c, hc, hv⟩ := val_scalar hx hs
  simp only [MV.inverse, hm, MV.runInverse, hc]
  split_ifs with h0
  · exact Or.inr rfl
  · left
    refine ⟨⟨x.sub, [1 / c]⟩, ?_, ⟨hx.sub, by simp [hs]⟩, ?_⟩
    · rw [MV.copy, MV.construct, if_pos (by simp [hs])]; rfl
    · rw [hv]
      simp [val, denote, hs, blade_zero, smul_smul, h0]

/-- `inverse` on a subspace that simplifies in `k` steps. -/
theorem inverse_works (hA : WfAlg A) (h5 : A.n ≤ 5) (h2 : (2 : R) ≠ 0) (k : Nat) (hk : k ≤ 3) (fuel : Nat) (hf : k + 1 ≤ fuel) {x : MV R}
    (hx : WfMV A x) (hs : SubSpace.isNSimple A k x.sub = some true) : Works A (val A x) (MV.inverse A fuel x) := by
  induction k using Nat.strong_induction_on generalizing fuel x with
  | _ k ih =>
    obtain ⟨fuel, rfl⟩ : ∃ f, fuel = f + 1 := ⟨fuel - 1, by omega⟩
    by_cases he : x.sub = ⟨[]⟩
    · exact Or.inr (inverse_empty hA fuel he)
    by_cases h0 : x.sub = ⟨[0]⟩
    · exact inverse_scalar hA fuel hx h0
    obtain _ | k := k
    · exfalso
      rw [SubSpace.isNSimple, (scalar_eq hA).1, Option.bind_eq_bind, Option.bind_some, Option.some_inj, contains_iff] at hs
      have hnd := hx.sub.nodup
      obtain ⟨⟨bs⟩, v⟩ := x
      simp only [SubOf, List.mem_singleton, SubSpace.mk.injEq] at hs h0 he hnd
      match bs, he, h0, hs, hnd with
      | [b], _, h0, hs, _ => exact h0 (by rw [hs b (by simp)])
      | a :: b :: _, _, _, hs, hnd => rw [hs a (by simp), hs b (by simp)] at hnd; simp at hnd
    have hne : x.vals ≠ [] := by
      intro h
      have := hx.len
      rw [h] at this
      apply he
      obtain ⟨⟨bs⟩, v⟩ := x
      rw [List.length_nil, eq_comm, List.length_eq_zero_iff] at this
      simpa using this
    by_cases h3 : 3 ≤ A.n ∨ k = 0
    swap
    · exact ih 1 (by omega) (by omega) (fuel + 1) (by omega) hx (nsimple_dim2 hA (by omega) hx.sub 0)
    obtain ⟨⟨c, r⟩, o1, o2, o3⟩ := dispatch_cases hA hx.sub (by omega : k ≤ 2) h3 hs
    simp only at o1 o2
    have hred : MV.inverse A (fuel + 1) x = MV.runInverse A (MV.inverse A fuel) x r := by rw [MV.inverse, o2]
    rw [hred]
    rcases o3 with o3 | ⟨i, i1, o3⟩ | ⟨i1, o3⟩
    · exfalso
      simp only [options0, List.mem_cons, List.not_mem_nil, or_false, Prod.mk.injEq] at o3
      rcases o3 with ⟨rfl, _⟩ | ⟨rfl, _⟩
      · simp [empty_eq hA, he] at o1
      · simp [(scalar_eq hA).1, h0] at o1
    · exact simplify_works hA o3 hx hne o1 fun p hp hps _ => ih i (by omega) (by omega) fuel (by omega) hp hps
    simp only [optionsS, List.mem_cons, List.not_mem_nil, or_false, Prod.mk.injEq] at o3
    rcases o3 with ⟨rfl, rfl⟩ | ⟨rfl, rfl⟩
    · obtain ⟨T, t1, t2, t3⟩ := (C14_named hA).2.2.1 (by omega)
      simp only [t1, Option.bind_eq_bind, Option.bind_some, Option.some_inj, contains_iff] at o1
      exact bivector_works hA h5 h2 (by omega) hx (fun b hb => ((t3 b).1 (o1 b hb)).2) fun p hp hps => ih 1 (by omega) (by omega) fuel (by omega) hp hps
    · obtain ⟨T, t1, t2, t3⟩ := (C14_named hA).2.2.2.1 (by omega)
      simp only [t1, Option.bind_eq_bind, Option.bind_some, Option.some_inj, contains_iff] at o1
      exact trivector_works hA h5 h2 (by omega) hx (fun b hb => ((t3 b).1 (o1 b hb)).2) fun p hp hps => ih 1 (by omega) (by omega) fuel (by omega) hp hps

end Verif
