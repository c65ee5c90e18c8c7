import Verif.Spec.Subspace
import Verif.Props.Blades
import Mathlib.Data.List.Sort
import Mathlib.Data.List.Nodup
/-! Lemmas about subspaces. -/
namespace Verif
open Model Spec

theorem popcount_eq (b : Nat) : popcount b = pc 32 b := (Props.pc_eq_card 32 b).symm

theorem popcount_of_lt {n b : Nat} (hn : n ≤ 32) (hb : b < 2 ^ n) : popcount b = pc n b := by
  rw [popcount_eq, pc_of_lt hb hn]

theorem grade_popcount {A : Alg} (hA : WfAlg A) {b : Nat} (hb : b < 2 ^ A.n) : A.grade b = popcount b := by
  rw [grade_eq hA hb, popcount_of_lt hA.le32 hb]

theorem width_le {A : Alg} (hA : WfAlg A) : A.width ≤ 32 := by
  have := hA.item_le; unfold Alg.width; omega

theorem grade_popcount' {A : Alg} (hA : WfAlg A) {b : Nat} (hb : b < 2 ^ A.width) : A.grade b = popcount b := by
  rw [grade_eq' hA, popcount_of_lt (width_le hA) hb]

theorem toDtype_lt {A : Alg} (hA : WfAlg A) {b : Nat} (hb : b < 2 ^ A.n) : A.toDtype b = b :=
  Nat.mod_eq_of_lt (lt_of_lt_of_le hb (Nat.pow_le_pow_right (by norm_num) hA.le_width))

theorem bladeLt_irrefl (a : Nat) : ¬ bladeLt a a := by unfold bladeLt; omega
theorem bladeLt_trans {a b c : Nat} (h : bladeLt a b) (h' : bladeLt b c) : bladeLt a c := by
  unfold bladeLt at *; omega
theorem bladeLt_asymm {a b : Nat} (h : bladeLt a b) : ¬ bladeLt b a := by
  unfold bladeLt at *; omega
theorem bladeLt_trichotomy (a b : Nat) : bladeLt a b ∨ a = b ∨ bladeLt b a := by
  unfold bladeLt; omega

instance : Std.Irrefl bladeLt := ⟨bladeLt_irrefl⟩
instance : Std.Asymm bladeLt := ⟨fun _ _ => bladeLt_asymm⟩
instance : Std.Antisymm bladeLt := ⟨fun _ _ h h' => absurd h' (bladeLt_asymm h)⟩

theorem xor_cancel (a b : Nat) : a ^^^ b ^^^ b = a := by rw [Nat.xor_assoc, Nat.xor_self, Nat.xor_zero]

theorem Spec.WfSub.nodup {A : Alg} {S : SubSpace} (h : WfSub A S) : S.blades.Nodup :=
  h.sorted.imp fun hab => by rintro rfl; exact bladeLt_irrefl _ hab

theorem Spec.WfSub.ext {A : Alg} {S T : SubSpace} (hS : WfSub A S) (hT : WfSub A T)
    (h : ∀ b, b ∈ S.blades ↔ b ∈ T.blades) : S = T := by
  have hp : S.blades.Perm T.blades := (List.perm_ext_iff_of_nodup hS.nodup hT.nodup).2 h
  have := List.Perm.eq_of_pairwise' hS.sorted hT.sorted hp
  cases S; cases T; simp_all

theorem Spec.IsSpace.unique {A : Alg} {S T : SubSpace} {p : Nat → Prop} (hS : IsSpace A S p) (hT : IsSpace A T p) :
    S = T := WfSub.ext hS.1 hT.1 fun b => by rw [hS.2, hT.2]

theorem Spec.IsSpace.congr {A : Alg} {S : SubSpace} {p q : Nat → Prop} (hS : IsSpace A S p)
    (h : ∀ b < 2 ^ A.n, p b ↔ q b) : IsSpace A S q :=
  ⟨hS.1, fun b => by rw [hS.2]; constructor <;> rintro ⟨h1, h2⟩ <;> exact ⟨h1, by simpa [h b h1] using h2⟩⟩

theorem Spec.WfSub.isSpace {A : Alg} {S : SubSpace} (h : WfSub A S) : IsSpace A S (· ∈ S.blades) :=
  ⟨h, fun b => ⟨fun hb => ⟨h.lt b hb, hb⟩, fun hb => hb.2⟩⟩

theorem bladeLe_iff {A : Alg} (hA : WfAlg A) {a b : Nat} (ha : a < 2 ^ A.width) (hb : b < 2 ^ A.width) :
    A.bladeLe a b = true ↔ ¬ bladeLt b a := by
  simp only [Alg.bladeLe, bladeLt, grade_popcount' hA ha, grade_popcount' hA hb, Bool.or_eq_true,
    Bool.and_eq_true, decide_eq_true_eq, beq_iff_eq]
  omega

theorem orderBlades_perm (A : Alg) (l : List Nat) : (A.orderBlades l).Perm (l.map A.toDtype) :=
  List.perm_insertionSort _ _

theorem orderBlades_sorted (A : Alg) (l : List Nat) :
    (A.orderBlades l).Pairwise fun a b => A.bladeLe a b = true := by
  have : IsTrans Nat (A.bladeLe · · = true) := ⟨by
    intro a b c
    simp only [Alg.bladeLe, Bool.or_eq_true, Bool.and_eq_true, decide_eq_true_eq, beq_iff_eq]
    omega⟩
  have : Std.Total (α := Nat) (A.bladeLe · · = true) := ⟨by
    intro a b
    simp only [Alg.bladeLe, Bool.or_eq_true, Bool.and_eq_true, decide_eq_true_eq, beq_iff_eq]
    omega⟩
  exact List.pairwise_insertionSort _ _

/-- Full description of `from_blades`, for arbitrary input (values are cast to the dtype first). -/
theorem fromBlades_iff {A : Alg} (hA : WfAlg A) (l : List Nat) (S : SubSpace) :
    A.fromBlades l = some S ↔
      (l.map A.toDtype).Nodup ∧ S.blades.Perm (l.map A.toDtype) ∧ S.blades.Pairwise bladeLt := by
  have hlt : ∀ b ∈ l.map A.toDtype, b < 2 ^ A.width := by
    intro b hb
    obtain ⟨x, _, rfl⟩ := List.mem_map.1 hb
    exact Nat.mod_lt _ (Nat.two_pow_pos _)
  have hp := orderBlades_perm A l
  have hs : (l.map A.toDtype).Nodup → (A.orderBlades l).Pairwise bladeLt := by
    intro hnd
    have h1 := orderBlades_sorted A l
    have h2 : (A.orderBlades l).Pairwise (· ≠ ·) := hp.nodup_iff.2 hnd
    refine List.Pairwise.imp_of_mem ?_ (h1.and h2)
    intro a b ha hb hab
    have h3 := (bladeLe_iff hA (hlt a (hp.mem_iff.1 ha)) (hlt b (hp.mem_iff.1 hb))).1 hab.1
    rcases bladeLt_trichotomy a b with h | h | h
    · exact h
    · exact absurd h hab.2
    · exact absurd h h3
  simp only [Alg.fromBlades]
  constructor
  · intro h
    split at h
    · next hnd =>
      cases h
      have hnd' := hp.nodup_iff.1 hnd
      exact ⟨hnd', hp, hs hnd'⟩
    · cases h
  · rintro ⟨hnd, hperm, hsort⟩
    rw [if_pos (hp.nodup_iff.2 hnd)]
    have := List.Perm.eq_of_pairwise' (hs hnd) hsort (hp.trans hperm.symm)
    cases S; simp_all

theorem map_toDtype {A : Alg} (hA : WfAlg A) {l : List Nat} (hl : ∀ b ∈ l, b < 2 ^ A.n) : l.map A.toDtype = l := by
  conv_rhs => rw [← List.map_id l]
  exact List.map_congr_left fun b hb => toDtype_lt hA (hl b hb)

theorem fromBlades_some {A : Alg} (hA : WfAlg A) {l : List Nat} (hl : ∀ b ∈ l, b < 2 ^ A.n) (hnd : l.Nodup) :
    ∃ S, A.fromBlades l = some S ∧ IsSpace A S (· ∈ l) := by
  refine ⟨⟨A.orderBlades l⟩, ?_⟩
  have h0 : A.fromBlades l = some ⟨A.orderBlades l⟩ := by
    simp only [Alg.fromBlades]
    rw [if_pos]
    rw [(orderBlades_perm A l).nodup_iff, map_toDtype hA hl]; exact hnd
  refine ⟨h0, ?_⟩
  obtain ⟨_, h2, h3⟩ := (fromBlades_iff hA l _).1 h0
  rw [map_toDtype hA hl] at h2
  refine ⟨⟨fun b hb => hl b (h2.mem_iff.1 hb), h3⟩, fun b => ?_⟩
  rw [h2.mem_iff]
  exact ⟨fun h => ⟨hl b h, h⟩, fun h => h.2⟩

/-- `from_blades` of distinct blades is *the* space of those blades. -/
theorem fromBlades_eq {A : Alg} (hA : WfAlg A) {l : List Nat} (hnd : l.Nodup) {S : SubSpace} {p : Nat → Prop}
    (hS : IsSpace A S p) (h : ∀ b, b ∈ l ↔ b < 2 ^ A.n ∧ p b) : A.fromBlades l = some S := by
  obtain ⟨T, hT, hT2⟩ := fromBlades_some hA (fun b hb => ((h b).1 hb).1) hnd
  rw [hT, IsSpace.unique hS (hT2.congr fun b hb => by rw [h b]; simp [hb])]

theorem fromBlades_isSpace {A : Alg} (hA : WfAlg A) {l : List Nat} {p : Nat → Prop} (hnd : l.Nodup)
    (h : ∀ b, b ∈ l ↔ b < 2 ^ A.n ∧ p b) : ∃ S, A.fromBlades l = some S ∧ IsSpace A S p := by
  obtain ⟨T, hT, hT2⟩ := fromBlades_some hA (fun b hb => ((h b).1 hb).1) hnd
  exact ⟨T, hT, hT2.congr fun b hb => by rw [h b]; simp [hb]⟩

theorem fromBlades_self {A : Alg} (hA : WfAlg A) {S : SubSpace} (hS : WfSub A S) : A.fromBlades S.blades = some S :=
  fromBlades_eq hA hS.nodup hS.isSpace fun b => ⟨fun h => ⟨hS.lt b h, h⟩, fun h => h.2⟩

/-- Popcount of an all-ones pattern. -/
theorem popcount_ones {k : Nat} (hk : k ≤ 32) : popcount (2 ^ k - 1) = k := by
  rw [popcount_of_lt hk (Nat.sub_lt (Nat.two_pow_pos _) one_pos), pc]
  have : ∀ i ∈ Finset.range k, ((2 ^ k - 1).testBit i).toNat = 1 := by
    intro i hi
    rw [Finset.mem_range] at hi
    rw [Nat.testBit_two_pow_sub_one, decide_eq_true hi]; rfl
  rw [Finset.sum_congr rfl this]
  simp

theorem popcount_le {n b : Nat} (hn : n ≤ 32) (hb : b < 2 ^ n) : popcount b ≤ n := by
  rw [popcount_of_lt hn hb]; exact pc_le _ _

theorem mem_bladesByGrade {A : Alg} (hA : WfAlg A) {k : Nat} (hk : k ≤ A.n) :
    A.bladesByGrade[k]? = some ((List.range (2 ^ A.n)).filter fun b => bitCount 8 b == k) ∧
    ∀ b, b ∈ (List.range (2 ^ A.n)).filter (fun b => bitCount 8 b == k) ↔ b < 2 ^ A.n ∧ popcount b = k := by
  constructor
  · have : k < A.n + 1 := by omega
    simp [Alg.bladesByGrade, this]
  · intro b
    simp only [List.mem_filter, List.mem_range, beq_iff_eq]
    constructor
    · rintro ⟨h1, h2⟩
      refine ⟨h1, ?_⟩
      rw [bitCount_eq _ _ (by norm_num), pc_of_lt h1 (by have := hA.le32; omega)] at h2
      rw [popcount_of_lt hA.le32 h1, h2]
    · rintro ⟨h1, h2⟩
      refine ⟨h1, ?_⟩
      rw [bitCount_eq _ _ (by norm_num), pc_of_lt h1 (by have := hA.le32; omega), ← popcount_of_lt hA.le32 h1, h2]

theorem pyIndex_iff (n : Nat) (g : Int) (k : Nat) : pyIndex (n + 1) g = some k ↔ IsGrade n g k := by
  unfold pyIndex IsGrade
  split
  · split
    · rw [Option.some_inj]; omega
    · constructor
      · intro h; cases h
      · intro h; omega
  · split
    · rw [Option.some_inj]; push_cast; omega
    · constructor
      · intro h; cases h
      · intro h; omega

/-- The group of blades of grade `k`. -/
def gradeBlock (A : Alg) (k : Nat) : List Nat := (List.range (2 ^ A.n)).filter fun b => bitCount 8 b == k

theorem gradeBlock_get {A : Alg} (hA : WfAlg A) {g : Int} {k : Nat} (h : IsGrade A.n g k) :
    (pyIndex (A.n + 1) g).bind (A.bladesByGrade[·]?) = some (gradeBlock A k) := by
  rw [(pyIndex_iff A.n g k).2 h, Option.bind_some, (mem_bladesByGrade hA h.1).1]; rfl

theorem fromGrades_mapM {A : Alg} (hA : WfAlg A) {gs : List Int} {ks : List Nat}
    (h : List.Forall₂ (IsGrade A.n) gs ks) :
    (gs.mapM fun g => (pyIndex (A.n + 1) g).bind (A.bladesByGrade[·]?)) = some (ks.map (gradeBlock A)) := by
  induction h with
  | nil => rfl
  | cons h1 _ ih => rw [List.mapM_cons, gradeBlock_get hA h1, ih]; rfl

theorem fromGrades_forall₂ {A : Alg} (hA : WfAlg A) {gs : List Int} {ks : List Nat}
    (h : List.Forall₂ (IsGrade A.n) gs ks) :
    (ks = [] ∨ ¬ ks.Nodup → A.fromGrades gs = none) ∧
    (ks ≠ [] → ks.Nodup → ∃ S, A.fromGrades gs = some S ∧ IsSpace A S fun b => popcount b ∈ ks) := by
  have hk : ∀ k ∈ ks, k ≤ A.n := by
    intro k hk
    clear hA
    induction h with
    | nil => cases hk
    | cons h1 _ ih =>
      rw [List.mem_cons] at hk
      rcases hk with rfl | hk
      · exact h1.1
      · exact ih hk
  unfold Alg.fromGrades
  rw [fromGrades_mapM hA h]
  simp only [Option.bind_eq_bind, Option.bind_some, List.map_eq_nil_iff]
  constructor
  · rintro (rfl | hnd)
    · simp
    · by_cases hne : ks = []
      · simp [hne]
      rw [if_neg hne]
      simp only [Alg.fromBlades]
      rw [if_neg]
      rw [(orderBlades_perm A _).nodup_iff, map_toDtype hA]
      · intro hfl
        apply hnd
        rw [List.nodup_flatten] at hfl
        have h2 := hfl.2
        rw [List.pairwise_map] at h2
        refine List.Pairwise.imp_of_mem ?_ h2
        intro a b ha hb hab he
        subst he
        have hm : 2 ^ a - 1 ∈ gradeBlock A a := by
          refine ((mem_bladesByGrade hA (hk a ha)).2 _).2 ⟨?_, popcount_ones (by have := hA.le32; have := hk a ha; omega)⟩
          have := Nat.pow_le_pow_right (n := 2) (by norm_num) (hk a ha)
          have := Nat.two_pow_pos a
          omega
        exact hab hm hm
      · intro b hb
        obtain ⟨l, hl, hbl⟩ := List.mem_flatten.1 hb
        obtain ⟨k, hk', rfl⟩ := List.mem_map.1 hl
        exact (((mem_bladesByGrade hA (hk k hk')).2 b).1 hbl).1
  · intro hne hnd
    rw [if_neg hne]
    apply fromBlades_isSpace hA
    · rw [List.nodup_flatten]
      constructor
      · intro l hl
        obtain ⟨k, hk', rfl⟩ := List.mem_map.1 hl
        exact List.nodup_range.filter _
      · rw [List.pairwise_map]
        refine List.Pairwise.imp_of_mem ?_ hnd
        intro a b ha hb hab x hxa hxb
        have h1 := ((mem_bladesByGrade hA (hk a ha)).2 x).1 hxa
        have h2 := ((mem_bladesByGrade hA (hk b hb)).2 x).1 hxb
        exact hab (h1.2.symm.trans h2.2)
    · intro b
      simp only [List.mem_flatten, List.mem_map]
      constructor
      · rintro ⟨l, ⟨k, hk', rfl⟩, hb⟩
        obtain ⟨h1, h2⟩ := ((mem_bladesByGrade hA (hk k hk')).2 b).1 hb
        exact ⟨h1, h2 ▸ hk'⟩
      · rintro ⟨h1, h2⟩
        exact ⟨_, ⟨_, h2, rfl⟩, ((mem_bladesByGrade hA (hk _ h2)).2 b).2 ⟨h1, rfl⟩⟩

theorem kVector_isSpace {A : Alg} (hA : WfAlg A) {g : Int} {k : Nat} (h : IsGrade A.n g k) :
    ∃ S, A.kVector g = some S ∧ IsSpace A S fun b => popcount b = k := by
  obtain ⟨S, h1, h2⟩ := (fromGrades_forall₂ hA (List.Forall₂.cons h List.Forall₂.nil)).2 (by simp) (by simp)
  exact ⟨S, h1, h2.congr fun b _ => by simp⟩

theorem grades_forall₂ (A : Alg) (p : Nat → Bool) :
    List.Forall₂ (IsGrade A.n) ((A.grades.filter fun g => p g.toNat))
      ((List.range (A.n + 1)).filter p) := by
  unfold Alg.grades
  have : ∀ l : List Nat, (∀ k ∈ l, k ≤ A.n) →
      List.Forall₂ (IsGrade A.n) ((l.map Int.ofNat).filter fun g => p g.toNat) (l.filter p) := by
    intro l hl
    induction l with
    | nil => exact List.Forall₂.nil
    | cons k l ih =>
      have ih := ih (fun x hx => hl x (by simp [hx]))
      have hk : IsGrade A.n (Int.ofNat k) k := ⟨hl k (by simp), Or.inl rfl⟩
      rw [List.map_cons, List.filter_cons, List.filter_cons]
      simp only [Int.ofNat_eq_natCast, Int.toNat_natCast] at ih ⊢
      cases p k
      · exact ih
      · exact List.Forall₂.cons hk ih
  exact this _ (fun k hk => by rw [List.mem_range] at hk; omega)

theorem fromGrades_filter {A : Alg} (hA : WfAlg A) (p : Nat → Bool) (f : Int → Bool)
    (hf : ∀ k : Nat, f (k : Int) = p k) {k0 : Nat} (hk : k0 ≤ A.n) (hp : p k0 = true) :
    ∃ S, A.fromGrades (A.grades.filter f) = some S ∧ IsSpace A S fun b => p (popcount b) = true := by
  have h1 : A.grades.filter f = A.grades.filter fun g => p g.toNat := by
    apply List.filter_congr
    intro g hg
    obtain ⟨k, _, rfl⟩ := List.mem_map.1 hg
    simpa using hf k
  rw [h1]
  obtain ⟨S, h2, h3⟩ := (fromGrades_forall₂ hA (grades_forall₂ A p)).2 (by
    intro h
    have : k0 ∈ (List.range (A.n + 1)).filter p := by simp [hp]; omega
    rw [h] at this; cases this) (List.nodup_range.filter _)
  refine ⟨S, h2, h3.congr fun b hb => ?_⟩
  have := popcount_le hA.le32 hb
  simp only [List.mem_filter, List.mem_range]
  constructor
  · exact fun h => h.2
  · exact fun h => ⟨by omega, h⟩

theorem full_isSpace {A : Alg} (hA : WfAlg A) : ∃ S, A.full = some S ∧ IsSpace A S fun _ => True := by
  unfold Alg.full
  apply fromBlades_isSpace hA
  · rw [List.nodup_flatten]
    constructor
    · intro l hl
      obtain ⟨k, hk', rfl⟩ := List.mem_map.1 hl
      exact List.nodup_range.filter _
    · unfold Alg.bladesByGrade
      rw [List.pairwise_map]
      refine List.Pairwise.imp_of_mem ?_ (List.nodup_range (n := A.n + 1))
      intro a b ha hb hab x hxa hxb
      simp only [List.mem_filter, beq_iff_eq] at hxa hxb
      exact hab (hxa.2.symm.trans hxb.2)
  · intro b
    simp only [List.mem_flatten, Alg.bladesByGrade, List.mem_map, List.mem_range]
    constructor
    · rintro ⟨l, ⟨k, hk', rfl⟩, hb⟩
      simp only [List.mem_filter, List.mem_range] at hb
      exact ⟨hb.1, trivial⟩
    · rintro ⟨h1, _⟩
      have := popcount_le hA.le32 h1
      exact ⟨_, ⟨popcount b, by omega, rfl⟩, ((mem_bladesByGrade hA this).2 b).2 ⟨h1, rfl⟩⟩

/-- `pseudoscalar()` is the single all-ones blade. -/
theorem pseudoscalar_eq {A : Alg} (hA : WfAlg A) : A.pseudoscalar = some ⟨[A.pss]⟩ := by
  obtain ⟨S, h1, h2⟩ := kVector_isSpace hA (g := -1) (k := A.n) ⟨le_rfl, Or.inr (by omega)⟩
  have h3 : IsSpace A ⟨[A.pss]⟩ fun b => popcount b = A.n := by
    have hp : A.pss < 2 ^ A.n := Nat.sub_lt (Nat.two_pow_pos _) one_pos
    refine ⟨⟨?_, by simp⟩, ?_⟩
    · intro b hb; simp at hb; rw [hb]; exact hp
    · intro b
      simp only [List.mem_singleton]
      constructor
      · rintro rfl; exact ⟨hp, popcount_ones hA.le32⟩
      · rintro ⟨hb, hpc⟩
        rw [popcount_of_lt hA.le32 hb] at hpc
        have : ∀ i < A.n, b.testBit i = true := by
          have h5 : ∑ i ∈ Finset.range A.n, (b.testBit i).toNat = ∑ i ∈ Finset.range A.n, 1 := by
            rw [← pc, hpc]; simp
          have h6 := (Finset.sum_eq_sum_iff_of_le (fun i _ => Bool.toNat_le (b.testBit i))).1 h5
          intro i hi
          have := h6 i (Finset.mem_range.2 hi)
          cases hb : b.testBit i
          · rw [hb] at this; cases this
          · rfl
        apply Nat.eq_of_testBit_eq
        intro i
        by_cases hi : i < A.n
        · simp [this i hi, Alg.pss, hi]
        · rw [testBit_false_of_lt hb (by omega), testBit_false_of_lt hp (by omega)]
  rw [Alg.pseudoscalar, h1, IsSpace.unique h2 h3]

theorem pss_lt (A : Alg) : A.pss < 2 ^ A.n := Nat.sub_lt (Nat.two_pow_pos _) one_pos

theorem complement_spec {A : Alg} (hA : WfAlg A) {S : SubSpace} (hS : WfSub A S) :
    ∃ T, S.complement A = some T ∧ IsSpace A T fun b => b ^^^ A.pss ∈ S.blades := by
  unfold SubSpace.complement
  rw [pseudoscalar_eq hA]
  simp only [Option.bind_eq_bind, Option.bind_some, List.headD_cons]
  apply fromBlades_isSpace hA
  · exact hS.nodup.map fun a b h => by simpa [xor_cancel] using congrArg (· ^^^ A.pss) h
  · intro b
    simp only [List.mem_map]
    constructor
    · rintro ⟨a, ha, rfl⟩
      exact ⟨xor_lt (hS.lt a ha) (pss_lt A), by simpa [xor_cancel] using ha⟩
    · rintro ⟨_, h⟩
      exact ⟨_, h, xor_cancel _ _⟩

theorem popcount_complement {A : Alg} (hA : WfAlg A) {b : Nat} (hb : b < 2 ^ A.n) :
    popcount (b ^^^ A.pss) + popcount b = A.n := by
  rw [popcount_of_lt hA.le32 hb, popcount_of_lt hA.le32 (xor_lt hb (pss_lt A)), pc, pc, ← Finset.sum_add_distrib]
  rw [Finset.sum_congr rfl (fun i hi => ?_), Finset.sum_const, Finset.card_range, smul_eq_mul, mul_one]
  rw [Finset.mem_range] at hi
  rw [Nat.testBit_xor, Alg.pss, Nat.testBit_two_pow_sub_one, decide_eq_true hi]
  cases b.testBit i <;> rfl

theorem toRelativeIndices_eq {S : SubSpace} (bs : List Nat) :
    S.toRelativeIndices bs = if ∀ b ∈ bs, b ∈ S.blades then some (bs.map S.blades.idxOf) else none := by
  unfold SubSpace.toRelativeIndices
  induction bs with
  | nil => simp
  | cons b bs ih =>
    rw [List.mapM_cons, ih]
    by_cases hb : b ∈ S.blades
    · by_cases hbs : ∀ x ∈ bs, x ∈ S.blades
      · rw [if_pos hb, if_pos hbs, if_pos (by simpa [hb] using hbs)]; rfl
      · rw [if_pos hb, if_neg hbs, if_neg (by simpa [hb] using hbs)]; rfl
    · have hno : ¬ ∀ x ∈ b :: bs, x ∈ S.blades := fun h => hb (h b List.mem_cons_self)
      rw [if_neg hb, if_neg hno]; rfl

theorem isSubspace_iff (S T : SubSpace) : S.isSubspace T = true ↔ ∀ b ∈ S.blades, b ∈ T.blades := by
  unfold SubSpace.isSubspace
  rw [Bool.or_eq_true, beq_iff_eq, List.all_eq_true]
  simp only [List.contains_iff_mem]
  constructor
  · rintro (rfl | h)
    · exact fun _ h => h
    · exact h
  · exact Or.inr

theorem union_spec {A : Alg} (hA : WfAlg A) {S T : SubSpace} (hS : WfSub A S) (hT : WfSub A T) :
    ∃ U, S.union A T = some U ∧ IsSpace A U fun b => b ∈ S.blades ∨ b ∈ T.blades := by
  apply fromBlades_isSpace hA (List.nodup_dedup _)
  intro b
  simp only [List.mem_dedup, List.mem_append]
  constructor
  · rintro (h | h)
    · exact ⟨hS.lt b h, Or.inl h⟩
    · exact ⟨hT.lt b h, Or.inr h⟩
  · exact fun h => h.2

theorem intersection_spec {A : Alg} (hA : WfAlg A) {S T : SubSpace} (hS : WfSub A S) :
    ∃ U, S.intersection A T = some U ∧ IsSpace A U fun b => b ∈ S.blades ∧ b ∈ T.blades := by
  apply fromBlades_isSpace hA ((List.nodup_dedup _).filter _)
  intro b
  simp only [List.mem_dedup, List.mem_filter, decide_eq_true_eq]
  exact ⟨fun h => ⟨hS.lt b h.1, h⟩, fun h => h.2⟩

theorem difference_spec {A : Alg} (hA : WfAlg A) {S T : SubSpace} (hS : WfSub A S) :
    ∃ U, S.difference A T = some U ∧ IsSpace A U fun b => b ∈ S.blades ∧ b ∉ T.blades := by
  apply fromBlades_isSpace hA ((List.nodup_dedup _).filter _)
  intro b
  simp only [List.mem_dedup, List.mem_filter, decide_eq_true_eq]
  exact ⟨fun h => ⟨hS.lt b h.1, h⟩, fun h => h.2⟩

end Verif
