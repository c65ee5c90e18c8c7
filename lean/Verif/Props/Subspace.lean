import Verif.Proofs.Subspace
import Verif.Model.Flyweight
import Mathlib.Data.Nat.BitIndices
/-! # Properties C11 – C19: subspaces -/
namespace Verif.Props
open Model Spec

/-- Decision helper for the examples: a concrete list is a well-formed subspace. -/
def wfSubB (A : Alg) (S : SubSpace) : Bool :=
  S.blades.all (· < 2 ^ A.n) && decide (S.blades.Pairwise fun a b =>
    (pc 32 a < pc 32 b ∨ (pc 32 a = pc 32 b ∧ a < b)))

theorem wfSub_of_B {A : Alg} {S : SubSpace} (h : wfSubB A S = true) : WfSub A S := by
  simp only [wfSubB, Bool.and_eq_true, List.all_eq_true, decide_eq_true_eq] at h
  refine ⟨h.1, h.2.imp ?_⟩
  intro a b hab
  rw [bladeLt, popcount_eq, popcount_eq]; exact hab

/-- C12: `from_blades` of any list of blades of the algebra: it raises exactly on duplicates, and otherwise returns
the given blades, strictly sorted by (number of basis vectors, bit pattern). -/
theorem C12_from_blades {A : Alg} (hA : WfAlg A) {l : List Nat} (hl : ∀ b ∈ l, b < 2 ^ A.n) :
    ((A.fromBlades l).isSome ↔ l.Nodup) ∧
    ∀ S, A.fromBlades l = some S → S.blades.Perm l ∧ S.blades.Pairwise bladeLt := by
  constructor
  · constructor
    · intro h
      obtain ⟨S, hS⟩ := Option.isSome_iff_exists.1 h
      have := ((fromBlades_iff hA l S).1 hS).1
      rwa [map_toDtype hA hl] at this
    · intro h
      obtain ⟨S, hS, _⟩ := fromBlades_some hA hl h
      rw [hS]; rfl
  · intro S hS
    have := ((fromBlades_iff hA l S).1 hS).2
    rwa [map_toDtype hA hl] at this

example : (∀ b ∈ [12, 1, 0, 15, 8], b < 2 ^ pga3.n) ∧ pga3.fromBlades [12, 1, 0, 15, 8] = some ⟨[0, 1, 8, 12, 15]⟩ := by
  refine ⟨by decide, ?_⟩
  apply fromBlades_eq wf_pga3 (by decide) (p := fun b => b ∈ [12, 1, 0, 15, 8])
  · refine ⟨⟨by decide, ?_⟩, ?_⟩
    · exact (wfSub_of_B (A := pga3) (S := ⟨[0, 1, 8, 12, 15]⟩) (by decide +kernel)).sorted
    · intro b; simp; constructor
      · rintro (rfl | rfl | rfl | rfl | rfl) <;> decide
      · rintro ⟨_, h⟩; omega
  · intro b; constructor
    · intro h; exact ⟨by revert b; decide, h⟩
    · exact fun h => h.2

/-! ## C11: flyweight identity -/

theorem toBytes_injective {A : Alg} {l m : List Nat} (hp : 1 ≤ A.itemsize) (hl : ∀ b ∈ l, b < 2 ^ A.width)
    (hm : ∀ b ∈ m, b < 2 ^ A.width) (h : A.toBytes l = A.toBytes m) : l = m := by
  have hlen : ∀ b, (bytesOf A.itemsize b).length = A.itemsize := by intro b; simp [bytesOf]
  have hinj : ∀ a b, a < 2 ^ A.width → b < 2 ^ A.width → bytesOf A.itemsize a = bytesOf A.itemsize b → a = b := by
    intro a b ha hb hab
    apply Nat.eq_of_testBit_eq
    intro i
    by_cases hi : i < A.width
    · have h1 := congrArg (fun l => l.getD (i / 8) 0) hab
      unfold Alg.width at hi
      have hi' : i / 8 < A.itemsize := by omega
      simp only [bytesOf, List.getD_eq_getElem?_getD, List.getElem?_map, List.getElem?_range hi',
        Option.map_some, Option.getD_some] at h1
      have h2 := congrArg (fun x => x.testBit (i % 8)) h1
      simp only [show (256:Nat) = 2^8 by norm_num, Nat.testBit_mod_two_pow, Nat.testBit_shiftRight] at h2
      rw [decide_eq_true (show i % 8 < 8 by omega), show 8 * (i / 8) + i % 8 = i by omega] at h2
      simpa using h2
    · rw [testBit_false_of_lt ha (by omega), testBit_false_of_lt hb (by omega)]
  induction l generalizing m with
  | nil =>
    cases m with
    | nil => rfl
    | cons x m =>
      have := congrArg List.length h
      simp only [Alg.toBytes, List.flatMap_nil, List.flatMap_cons, List.length_append, hlen,
        List.length_nil] at this
      omega
  | cons a l ih =>
    cases m with
    | nil =>
      have := congrArg List.length h
      simp only [Alg.toBytes, List.flatMap_nil, List.flatMap_cons, List.length_append, hlen,
        List.length_nil] at this
      omega
    | cons b m =>
      simp only [Alg.toBytes, List.flatMap_cons] at h
      obtain ⟨h1, h2⟩ := List.append_inj h (by rw [hlen, hlen])
      rw [hinj a b (hl a (by simp)) (hm b (by simp)) h1,
        ih (m := m) (fun x hx => hl x (by simp [hx])) (fun x hx => hm x (by simp [hx])) h2]

/-- Invariant of the pool: every entry's key is the key of its object, objects are ordered and duplicate free, and
every object is registered. -/
structure PoolInv (A : Alg) (p : Pool) : Prop where
  entry : ∀ e ∈ p.entries, ∃ bs, p.objects[e.2]? = some bs ∧ e.1 = A.toBytes bs
  obj : ∀ bs ∈ p.objects, bs.Nodup ∧ (∀ b ∈ bs, b < 2 ^ A.width)
  sorted : ∀ bs ∈ p.objects, bs.Pairwise bladeLt
  reg : ∀ (i : Nat) (bs : List Nat), p.objects[i]? = some bs → ∃ e ∈ p.entries, e.1 = A.toBytes bs
  inj : ∀ (i j : Nat) (bs : List Nat), p.objects[i]? = some bs → p.objects[j]? = some bs → i = j

theorem orderBlades_lt (A : Alg) (l : List Nat) : ∀ b ∈ A.orderBlades l, b < 2 ^ A.width := by
  intro b hb
  rw [(orderBlades_perm A l).mem_iff] at hb
  obtain ⟨x, _, rfl⟩ := List.mem_map.1 hb
  exact Nat.mod_lt _ (Nat.two_pow_pos _)

theorem itemsize_pos {A : Alg} (hA : WfAlg A) : 1 ≤ A.itemsize := by
  have h1 := hA.pos; have h2 := hA.le_width; unfold Alg.width at h2; omega

/-- One construction keeps the invariant, never changes existing objects, and returns an object with exactly the
ordered blades asked for (or raises on duplicates). -/
theorem construct_inv {A : Alg} (hA : WfAlg A) {p : Pool} (hp : PoolInv A p) (l : List Nat) :
    PoolInv A (A.construct p l).1 ∧
    (∀ (i : Nat) (bs : List Nat), p.objects[i]? = some bs → (A.construct p l).1.objects[i]? = some bs) ∧
    ((A.construct p l).2 = none ↔ ¬ (l.map A.toDtype).Nodup) ∧
    (∀ i, (A.construct p l).2 = some i → (A.construct p l).1.objects[i]? = some (A.orderBlades l)) := by
  have hs : (A.orderBlades l).Nodup → (A.orderBlades l).Pairwise bladeLt := by
    intro hnd
    have : A.fromBlades l = some ⟨A.orderBlades l⟩ := by simp [Alg.fromBlades, hnd]
    exact ((fromBlades_iff hA l _).1 this).2.2
  have hnd_iff := (orderBlades_perm A l).nodup_iff
  simp only [Alg.construct]
  cases hf : p.entries.find? (·.1 == A.toBytes (A.orderBlades l)) with
  | some e =>
    have he := List.mem_of_find?_eq_some hf
    have hk := List.find?_some hf
    simp only [beq_iff_eq] at hk
    obtain ⟨bs, h1, h2⟩ := hp.entry e he
    have hbs := hp.obj bs (List.mem_of_getElem? h1)
    have : bs = A.orderBlades l :=
      toBytes_injective (itemsize_pos hA) hbs.2 (orderBlades_lt A l) (h2.symm.trans hk)
    refine ⟨hp, fun i bs h => h, ?_, ?_⟩
    · simp only [reduceCtorEq, false_iff, not_not]
      rw [← hnd_iff, ← this]; exact hbs.1
    · intro i hi
      simp only [Option.some_inj] at hi
      rw [← hi, h1, this]
  | none =>
    have hnone : ∀ e ∈ p.entries, e.1 ≠ A.toBytes (A.orderBlades l) := by
      intro e he
      have := List.find?_eq_none.1 hf e he
      simpa using this
    by_cases hnd : (A.orderBlades l).Nodup
    · simp only [hnd, if_true]
      have hnew : ∀ (i : Nat) (bs : List Nat), p.objects[i]? = some bs → bs ≠ A.orderBlades l := by
        rintro i bs h rfl
        obtain ⟨e, he, hk⟩ := hp.reg i _ h
        exact hnone e he hk
      have hget : ∀ (i : Nat) (bs : List Nat), (p.objects ++ [A.orderBlades l])[i]? = some bs →
          p.objects[i]? = some bs ∨ (i = p.objects.length ∧ bs = A.orderBlades l) := by
        intro i bs h
        rw [List.getElem?_append] at h
        split at h
        · exact Or.inl h
        · next hi =>
          right
          have : i - p.objects.length = 0 := by
            by_contra hc
            rw [List.getElem?_eq_none (by simp; omega)] at h; cases h
          rw [this] at h
          simp at h
          exact ⟨by omega, h.symm⟩
      have hmem : ∀ bs ∈ p.objects ++ [A.orderBlades l], bs ∈ p.objects ∨ bs = A.orderBlades l := by
        intro bs h
        simpa using h
      refine ⟨⟨?_, ?_, ?_, ?_, ?_⟩, ?_, ?_, ?_⟩
      · intro e he
        rw [List.mem_append, List.mem_singleton] at he
        rcases he with he | rfl
        · obtain ⟨bs, h1, h2⟩ := hp.entry e he
          exact ⟨bs, by rw [List.getElem?_append_left (List.getElem?_eq_some_iff.1 h1).1]; exact h1, h2⟩
        · exact ⟨A.orderBlades l, by simp, rfl⟩
      · intro bs h
        rcases hmem bs h with h | rfl
        · exact hp.obj bs h
        · exact ⟨hnd, orderBlades_lt A l⟩
      · intro bs h
        rcases hmem bs h with h | rfl
        · exact hp.sorted bs h
        · exact hs hnd
      · intro i bs h
        rcases hget i bs h with h | ⟨_, rfl⟩
        · obtain ⟨e, he, hk⟩ := hp.reg i bs h
          exact ⟨e, by simp [he], hk⟩
        · exact ⟨(A.toBytes (A.orderBlades l), p.objects.length), by simp, rfl⟩
      · intro i j bs hi hj
        rcases hget i bs hi with hi | ⟨hi, hb⟩ <;> rcases hget j bs hj with hj | ⟨hj, hb'⟩
        · exact hp.inj i j bs hi hj
        · exact absurd hb' (hnew i bs hi)
        · exact absurd hb (hnew j bs hj)
        · omega
      · intro i bs h
        rw [List.getElem?_append_left (List.getElem?_eq_some_iff.1 h).1]; exact h
      · simp only [reduceCtorEq, false_iff, not_not]
        rwa [← hnd_iff]
      · intro i hi
        simp only [Option.some_inj] at hi
        subst hi; simp
    · simp only [hnd, if_false]
      refine ⟨hp, fun i bs h => h, ?_, ?_⟩
      · simp only [true_iff]
        rwa [← hnd_iff]
      · intro i hi; cases hi

theorem init_inv (A : Alg) : PoolInv A Pool.init := by
  constructor <;> simp [Pool.init]

theorem constructAll_inv {A : Alg} (hA : WfAlg A) (ls : List (List Nat)) {p : Pool} (hp : PoolInv A p) :
    PoolInv A (A.constructAll p ls).1 ∧
    (∀ (i : Nat) (bs : List Nat), p.objects[i]? = some bs → (A.constructAll p ls).1.objects[i]? = some bs) ∧
    List.Forall₂ (fun l r => (r = none ↔ ¬ (l.map A.toDtype).Nodup) ∧
      ∀ i, r = some i → (A.constructAll p ls).1.objects[i]? = some (A.orderBlades l)) ls (A.constructAll p ls).2 := by
  induction ls generalizing p with
  | nil => exact ⟨hp, fun i bs h => h, List.Forall₂.nil⟩
  | cons l ls ih =>
    obtain ⟨h1, h2, h3, h4⟩ := construct_inv hA hp l
    obtain ⟨g1, g2, g3⟩ := ih h1
    simp only [Alg.constructAll]
    exact ⟨g1, fun i bs h => g2 i bs (h2 i bs h), List.Forall₂.cons ⟨h3, fun i hi => g2 i _ (h4 i hi)⟩ g3⟩

/-- C11: after any history of `from_blades` calls on one algebra, the results of two calls are the same object
exactly when the two calls were given the same set of blades, in whatever order, and a call raises exactly when its
input has duplicates. -/
theorem C11_identity {A : Alg} (hA : WfAlg A) (hist : List (List Nat)) (hl : ∀ l ∈ hist, ∀ b ∈ l, b < 2 ^ A.n)
    (i j : Nat) (l m : List Nat) (r s : Option Nat)
    (hi : hist[i]? = some l) (hj : hist[j]? = some m)
    (hr : (A.constructAll Pool.init hist).2[i]? = some r) (hs : (A.constructAll Pool.init hist).2[j]? = some s) :
    (r = none ↔ ¬ l.Nodup) ∧ (r ≠ none → s ≠ none → (r = s ↔ ∀ b, b ∈ l ↔ b ∈ m)) := by
  obtain ⟨h1, _, h3⟩ := constructAll_inv hA hist (init_inv A)
  have hget : ∀ (k : Nat) (x : List Nat) (y : Option Nat), hist[k]? = some x →
      (A.constructAll Pool.init hist).2[k]? = some y →
      (y = none ↔ ¬ (x.map A.toDtype).Nodup) ∧
      ∀ a, y = some a → (A.constructAll Pool.init hist).1.objects[a]? = some (A.orderBlades x) := by
    intro k x y hx hy
    have := List.forall₂_iff_get.1 h3
    obtain ⟨hk1, hk1'⟩ := List.getElem?_eq_some_iff.1 hx
    obtain ⟨hk2, hk2'⟩ := List.getElem?_eq_some_iff.1 hy
    have := this.2 k hk1 hk2
    simpa [hk1', hk2'] using this
  have hml : l ∈ hist := List.mem_of_getElem? hi
  have hmm : m ∈ hist := List.mem_of_getElem? hj
  obtain ⟨a1, a2⟩ := hget i l r hi hr
  obtain ⟨b1, b2⟩ := hget j m s hj hs
  rw [map_toDtype hA (hl l hml)] at a1
  rw [map_toDtype hA (hl m hmm)] at b1
  refine ⟨a1, ?_⟩
  intro hrn hsn
  obtain ⟨x, rfl⟩ := Option.ne_none_iff_exists'.1 hrn
  obtain ⟨y, rfl⟩ := Option.ne_none_iff_exists'.1 hsn
  have ax := a2 x rfl
  have by' := b2 y rfl
  have pl := orderBlades_perm A l
  have pm := orderBlades_perm A m
  rw [map_toDtype hA (hl l hml)] at pl
  rw [map_toDtype hA (hl m hmm)] at pm
  rw [Option.some_inj]
  constructor
  · rintro rfl b
    rw [ax] at by'
    have := Option.some_inj.1 by'
    rw [← pl.mem_iff, this, pm.mem_iff]
  · intro h
    have e : A.orderBlades l = A.orderBlades m := by
      have pp : (A.orderBlades l).Perm (A.orderBlades m) := by
        rw [List.perm_ext_iff_of_nodup (h1.obj _ (List.mem_of_getElem? ax)).1 (h1.obj _ (List.mem_of_getElem? by')).1]
        intro b; rw [pl.mem_iff, pm.mem_iff, h b]
      exact List.Perm.eq_of_pairwise' (h1.sorted _ (List.mem_of_getElem? ax)) (h1.sorted _ (List.mem_of_getElem? by')) pp
    rw [← e] at by'
    exact h1.inj x y _ ax by'

/-- C11: constructing more subspaces never changes one that already exists. -/
theorem C11_stable {A : Alg} (hA : WfAlg A) (h1 h2 : List (List Nat)) (i : Nat) (bs : List Nat)
    (h : (A.constructAll Pool.init h1).1.objects[i]? = some bs) :
    (A.constructAll (A.constructAll Pool.init h1).1 h2).1.objects[i]? = some bs :=
  (constructAll_inv hA h2 (constructAll_inv hA h1 (init_inv A)).1).2.1 i bs h

example : (pga3.constructAll Pool.init [[1, 2], [4], [2, 1], [1, 1]]).2 = [some 0, some 1, some 0, none] := by
  decide +kernel

/-- C13: union, intersection, difference, containment, restriction and selection are the set operations on blades;
none of them ever raises. -/
theorem C13_set_algebra {A : Alg} (hA : WfAlg A) {S T : SubSpace} (hS : WfSub A S) (hT : WfSub A T) :
    (∃ U, S.union A T = some U ∧ IsSpace A U fun b => b ∈ S.blades ∨ b ∈ T.blades) ∧
    (∃ U, S.intersection A T = some U ∧ IsSpace A U fun b => b ∈ S.blades ∧ b ∈ T.blades) ∧
    (∃ U, S.difference A T = some U ∧ IsSpace A U fun b => b ∈ S.blades ∧ b ∉ T.blades) ∧
    (S.contains T = true ↔ ∀ b ∈ T.blades, b ∈ S.blades) ∧
    (S.isSubspace T = true ↔ ∀ b ∈ S.blades, b ∈ T.blades) ∧
    (∃ U, S.restrictSubspace A T = some U ∧ IsSpace A U fun b => b ∈ S.blades ∧ b ∈ T.blades) ∧
    S.selectSubspace A T = some T := by
  refine ⟨union_spec hA hS hT, intersection_spec hA hS, difference_spec hA hS, isSubspace_iff T S,
    isSubspace_iff S T, intersection_spec hA hS, ?_⟩
  obtain ⟨U, h1, h2⟩ := intersection_spec hA (T := T) hS
  rw [SubSpace.selectSubspace, SubSpace.restrictSubspace, h1, Option.bind_some]
  obtain ⟨V, h3, h4⟩ := union_spec hA hT h2.1
  rw [h3]
  congr 1
  apply IsSpace.unique h4
  refine ⟨hT, fun b => ⟨fun hb => ⟨hT.lt b hb, Or.inl hb⟩, ?_⟩⟩
  rintro ⟨_, h | h⟩
  · exact h
  · exact ((h2.2 b).1 h).2.2

example : WfSub pga3 ⟨[0, 1, 8, 12, 15]⟩ ∧ WfSub pga3 ⟨[8, 9, 12]⟩ := ⟨wfSub_of_B (by decide +kernel), wfSub_of_B (by decide +kernel)⟩

/-- C14: `from_grades`, for any list of Python grade indices that denote the grades `ks`: raises when the list is
empty or a grade repeats, and otherwise is exactly the space of blades with a grade in `ks`. -/
theorem C14_from_grades {A : Alg} (hA : WfAlg A) {gs : List Int} {ks : List Nat}
    (h : List.Forall₂ (IsGrade A.n) gs ks) :
    (ks = [] ∨ ¬ ks.Nodup → A.fromGrades gs = none) ∧
    (ks ≠ [] → ks.Nodup → ∃ S, A.fromGrades gs = some S ∧ IsSpace A S fun b => popcount b ∈ ks) :=
  fromGrades_forall₂ hA h

/-- C14: an index that denotes no grade raises. -/
theorem C14_out_of_range {A : Alg} {gs : List Int} {g : Int} (hg : g ∈ gs)
    (h : (A.n : Int) < g ∨ g < -(A.n + 1)) : A.fromGrades gs = none := by
  unfold Alg.fromGrades
  have hnone : pyIndex (A.n + 1) g = none := by
    cases hp : pyIndex (A.n + 1) g with
    | none => rfl
    | some k =>
      have := (pyIndex_iff A.n g k).1 hp
      unfold IsGrade at this; omega
  have : (gs.mapM fun g => (pyIndex (A.n + 1) g).bind (A.bladesByGrade[·]?)) = none := by
    induction gs with
    | nil => cases hg
    | cons x xs ih =>
      rw [List.mapM_cons]
      rw [List.mem_cons] at hg
      rcases hg with rfl | hg
      · rw [hnone]; rfl
      · rw [ih hg]
        cases ((pyIndex (A.n + 1) x).bind (A.bladesByGrade[·]?)) <;> rfl
  rw [this]; rfl

/-- C14: all named grade constructors are the sets their names promise. -/
theorem C14_named {A : Alg} (hA : WfAlg A) :
    (∃ S, A.scalar = some S ∧ IsSpace A S fun b => b = 0) ∧
    (∃ S, A.vector = some S ∧ IsSpace A S fun b => popcount b = 1) ∧
    (2 ≤ A.n → ∃ S, A.bivector = some S ∧ IsSpace A S fun b => popcount b = 2) ∧
    (3 ≤ A.n → ∃ S, A.trivector = some S ∧ IsSpace A S fun b => popcount b = 3) ∧
    (4 ≤ A.n → ∃ S, A.quadvector = some S ∧ IsSpace A S fun b => popcount b = 4) ∧
    (∃ S, A.pseudoscalar = some S ∧ IsSpace A S fun b => popcount b = A.n) ∧
    (∃ S, A.antivector = some S ∧ IsSpace A S fun b => popcount b + 1 = A.n) ∧
    (2 ≤ A.n → ∃ S, A.antibivector = some S ∧ IsSpace A S fun b => popcount b + 2 = A.n) ∧
    (∃ S, A.scalarPseudoscalar = some S ∧ IsSpace A S fun b => b = 0 ∨ popcount b = A.n) ∧
    (∃ S, A.nonscalar = some S ∧ IsSpace A S fun b => b ≠ 0) ∧
    (∃ S, A.full = some S ∧ IsSpace A S fun _ => True) ∧
    (∃ S, A.empty = some S ∧ IsSpace A S fun _ => False) ∧
    (∃ S, A.evenGrade = some S ∧ IsSpace A S fun b => popcount b % 2 = 0) ∧
    (∃ S, A.oddGrade = some S ∧ IsSpace A S fun b => popcount b % 2 = 1) ∧
    (∃ S, A.selfReverse = some S ∧ IsSpace A S fun b => popcount b % 4 = 0 ∨ popcount b % 4 = 1) ∧
    (∃ S, A.mod4 = some S ∧ IsSpace A S fun b => popcount b % 4 = 0) := by
  have hpos := hA.pos
  have pop0 : ∀ b < 2 ^ A.n, popcount b = 0 ↔ b = 0 := by
    intro b hb
    constructor
    · intro h
      rw [popcount_of_lt hA.le32 hb, pc, Finset.sum_eq_zero_iff] at h
      apply Nat.eq_of_testBit_eq
      intro i
      rw [Nat.zero_testBit]
      by_cases hi : i < A.n
      · have := h i (Finset.mem_range.2 hi)
        cases hb : b.testBit i
        · rfl
        · rw [hb] at this; cases this
      · exact testBit_false_of_lt hb (by omega)
    · rintro rfl; rw [popcount_eq]; simp
  refine ⟨?_, ?_, ?_, ?_, ?_, ?_, ?_, ?_, ?_, ?_, full_isSpace hA, ?_, ?_, ?_, ?_, ?_⟩
  · obtain ⟨S, h1, h2⟩ := kVector_isSpace hA (g := 0) (k := 0) ⟨by omega, Or.inl rfl⟩
    exact ⟨S, h1, h2.congr pop0⟩
  · exact kVector_isSpace hA ⟨by omega, Or.inl rfl⟩
  · intro h; exact kVector_isSpace hA ⟨by omega, Or.inl rfl⟩
  · intro h; exact kVector_isSpace hA ⟨by omega, Or.inl rfl⟩
  · intro h; exact kVector_isSpace hA ⟨by omega, Or.inl rfl⟩
  · exact kVector_isSpace hA ⟨le_rfl, Or.inr (by omega)⟩
  · obtain ⟨S, h1, h2⟩ := kVector_isSpace hA (g := -2) (k := A.n - 1) ⟨by omega, Or.inr (by omega)⟩
    exact ⟨S, h1, h2.congr fun b _ => by omega⟩
  · intro h
    obtain ⟨S, h1, h2⟩ := kVector_isSpace hA (g := -3) (k := A.n - 2) ⟨by omega, Or.inr (by omega)⟩
    exact ⟨S, h1, h2.congr fun b _ => by omega⟩
  · obtain ⟨S, h1, h2⟩ := (fromGrades_forall₂ hA (gs := [0, -1]) (ks := [0, A.n])
      (List.Forall₂.cons ⟨by omega, Or.inl rfl⟩ (List.Forall₂.cons ⟨le_rfl, Or.inr (by omega)⟩ List.Forall₂.nil))).2
      (by simp) (by simp; omega)
    exact ⟨S, h1, h2.congr fun b hb => by simp [pop0 b hb]⟩
  · have h0 : A.grades.tail = A.grades.filter (fun g => decide (g ≠ 0)) := by
      unfold Alg.grades
      rw [List.range_succ_eq_map, List.map_cons, List.tail_cons, List.filter_cons]
      simp only [Int.ofNat_eq_natCast, Nat.cast_zero, ne_eq, not_true_eq_false, decide_false, Bool.false_eq_true,
        if_false, List.map_map]
      symm
      rw [List.filter_eq_self]
      intro g hg
      obtain ⟨k, _, rfl⟩ := List.mem_map.1 hg
      simp only [Function.comp]; exact decide_eq_true (by show ((k.succ : Nat) : Int) ≠ 0; omega)
    obtain ⟨S, h1, h2⟩ := fromGrades_filter hA (fun k => decide (k ≠ 0)) (fun g => decide (g ≠ 0)) (by
      intro k; simp) (k0 := 1) (by omega) (by simp)
    refine ⟨S, by rw [Alg.nonscalar, h0, h1], h2.congr fun b hb => ?_⟩
    rw [decide_eq_true_eq, ne_eq, pop0 b hb]
  · obtain ⟨S, h1, h2⟩ := fromBlades_some hA (l := []) (by simp) (by simp)
    exact ⟨S, h1, h2.congr fun b _ => by simp⟩
  · obtain ⟨S, h1, h2⟩ := fromGrades_filter hA (fun k => k % 2 == 0) (fun g => g % 2 == 0) (by
      intro k; rw [Bool.eq_iff_iff, beq_iff_eq, beq_iff_eq]; omega) (k0 := 0) (by omega) (by simp)
    exact ⟨S, h1, h2.congr fun b hb => by simp⟩
  · obtain ⟨S, h1, h2⟩ := fromGrades_filter hA (fun k => k % 2 == 1) (fun g => g % 2 == 1) (by
      intro k; rw [Bool.eq_iff_iff, beq_iff_eq, beq_iff_eq]; omega) (k0 := 1) (by omega) (by simp)
    exact ⟨S, h1, h2.congr fun b hb => by simp⟩
  · obtain ⟨S, h1, h2⟩ := fromGrades_filter hA (fun k => k / 2 % 2 == 0) (fun g => g / 2 % 2 == 0) (by
      intro k; rw [Bool.eq_iff_iff, beq_iff_eq, beq_iff_eq]; omega) (k0 := 0) (by omega) (by simp)
    exact ⟨S, h1, h2.congr fun b hb => by rw [beq_iff_eq]; omega⟩
  · obtain ⟨S, h1, h2⟩ := fromGrades_filter hA (fun k => k % 4 == 0) (fun g => g % 4 == 0) (by
      intro k; rw [Bool.eq_iff_iff, beq_iff_eq, beq_iff_eq]; omega) (k0 := 0) (by omega) (by simp)
    exact ⟨S, h1, h2.congr fun b hb => by simp⟩

example : List.Forall₂ (IsGrade pga3.n) [0, 2, -1] [0, 2, 4] := by
  refine List.Forall₂.cons ⟨by decide, by decide⟩ (List.Forall₂.cons ⟨by decide, by decide⟩
    (List.Forall₂.cons ⟨by decide, by decide⟩ List.Forall₂.nil))

/-- C15: `to_relative_indices` inverts indexing, and raises iff a blade is missing. -/
theorem C15_relative_indices (S : SubSpace) (bs : List Nat) :
    ((S.toRelativeIndices bs).isSome ↔ ∀ b ∈ bs, b ∈ S.blades) ∧
    ∀ idx, S.toRelativeIndices bs = some idx → idx.mapM (S.blades[·]?) = some bs := by
  rw [toRelativeIndices_eq]
  constructor
  · split <;> simp_all
  · intro idx h
    split at h
    · next hb =>
      cases h
      induction bs with
      | nil => rfl
      | cons b bs ih =>
        rw [List.map_cons, List.mapM_cons, ih (fun x hx => hb x (by simp [hx])),
          List.getElem?_eq_getElem (List.idxOf_lt_length_of_mem (hb b (by simp)))]
        simp
    · cases h

/-- C15: the relative index of the `i`-th blade is `i`. -/
theorem C15_index_of_get {A : Alg} {S : SubSpace} (hS : WfSub A S) :
    S.toRelativeIndices S.blades = some (List.range S.blades.length) := by
  rw [toRelativeIndices_eq, if_pos (fun _ h => h)]
  congr 1
  apply List.ext_getElem
  · simp
  · intro i h1 h2
    simp only [List.getElem_map, List.getElem_range]
    exact hS.nodup.idxOf_getElem i (by simpa using h1)

/-- C15: slicing with increasing in-range indices keeps exactly the indexed blades in the indexed order. -/
theorem C15_slice {A : Alg} (hA : WfAlg A) {S : SubSpace} (hS : WfSub A S) {idx : List Nat}
    (hi : ∀ i ∈ idx, i < S.blades.length) (hs : idx.Pairwise (· < ·)) :
    S.slice A idx = some ⟨idx.map (S.blades.getD · 0)⟩ ∧ WfSub A ⟨idx.map (S.blades.getD · 0)⟩ := by
  have hget : ∀ i (h : i < S.blades.length), S.blades.getD i 0 = S.blades[i] := by
    intro i h; rw [List.getD_eq_getElem?_getD, List.getElem?_eq_getElem h]; rfl
  have hm : idx.mapM (S.blades[·]?) = some (idx.map (S.blades.getD · 0)) := by
    clear hs
    induction idx with
    | nil => rfl
    | cons i idx ih =>
      have h1 := hi i (by simp)
      rw [List.mapM_cons, ih (fun j hj => hi j (by simp [hj])), List.getElem?_eq_getElem h1, List.map_cons, hget i h1]
      rfl
  have hw : WfSub A ⟨idx.map (S.blades.getD · 0)⟩ := by
    constructor
    · intro b hb
      obtain ⟨i, hi', rfl⟩ := List.mem_map.1 hb
      rw [hget i (hi i hi')]
      exact hS.lt _ (List.getElem_mem _)
    · rw [List.pairwise_map]
      refine List.Pairwise.imp_of_mem ?_ hs
      intro a b ha hb hab
      rw [hget a (hi a ha), hget b (hi b hb)]
      exact List.pairwise_iff_getElem.1 hS.sorted a b (hi a ha) (hi b hb) hab
  refine ⟨?_, hw⟩
  rw [SubSpace.slice, hm, Option.bind_some]
  exact fromBlades_self hA hw

example : (⟨[0, 3, 5, 15]⟩ : SubSpace).toRelativeIndices [15, 3] = some [3, 1] ∧
    (⟨[0, 3, 5, 15]⟩ : SubSpace).toRelativeIndices [15, 4] = none := by decide
example : WfSub pga3 ⟨[0, 3, 5, 15]⟩ ∧ (∀ i ∈ [1, 3], i < 4) ∧ [1, 3].Pairwise (· < ·) :=
  ⟨wfSub_of_B (by decide +kernel), by decide, by decide⟩

/-- C16: `complement` never raises, contains exactly the complementary blades, exchanges grade `k` with `n-k`,
keeps the number of blades, and is an involution. -/
theorem C16_complement {A : Alg} (hA : WfAlg A) {S : SubSpace} (hS : WfSub A S) :
    ∃ T, S.complement A = some T ∧ WfSub A T ∧
      (∀ b < 2 ^ A.n, b ^^^ (2 ^ A.n - 1) ∈ T.blades ↔ b ∈ S.blades) ∧
      (∀ b < 2 ^ A.n, popcount (b ^^^ (2 ^ A.n - 1)) = A.n - popcount b) ∧
      T.blades.length = S.blades.length ∧ T.complement A = some S := by
  obtain ⟨T, h1, h2⟩ := complement_spec hA hS
  refine ⟨T, h1, h2.1, ?_, ?_, ?_, ?_⟩
  · intro b hb
    rw [h2.2, show 2 ^ A.n - 1 = A.pss from rfl]; simp only [xor_cancel]
    exact ⟨fun h => h.2, fun h => ⟨xor_lt hb (pss_lt A), h⟩⟩
  · intro b hb
    have := popcount_complement hA hb
    rw [show 2 ^ A.n - 1 = A.pss from rfl]; omega
  · have hp : T.blades.Perm (S.blades.map (· ^^^ A.pss)) := by
      rw [List.perm_ext_iff_of_nodup h2.1.nodup (hS.nodup.map fun a b h => by
        simpa [xor_cancel] using congrArg (· ^^^ A.pss) h)]
      intro b
      rw [h2.2, List.mem_map]
      constructor
      · rintro ⟨_, h⟩; exact ⟨_, h, xor_cancel _ _⟩
      · rintro ⟨a, ha, rfl⟩; exact ⟨xor_lt (hS.lt a ha) (pss_lt A), by simpa [xor_cancel] using ha⟩
    rw [hp.length_eq, List.length_map]
  · obtain ⟨U, h3, h4⟩ := complement_spec hA h2.1
    rw [h3]
    congr 1
    apply IsSpace.unique h4
    refine ⟨hS, fun b => ?_⟩
    constructor
    · intro hb
      exact ⟨hS.lt b hb, (h2.2 _).2 ⟨xor_lt (hS.lt b hb) (pss_lt A), by simpa only [xor_cancel] using hb⟩⟩
    · rintro ⟨_, h⟩
      have := ((h2.2 _).1 h).2
      simpa only [xor_cancel] using this

/-- C16: complement exchanges unions with unions. -/
theorem C16_union {A : Alg} (hA : WfAlg A) {S T U S' T' : SubSpace} (hS : WfSub A S) (hT : WfSub A T)
    (h : S.union A T = some U) (h1 : S.complement A = some S') (h2 : T.complement A = some T') :
    U.complement A = S'.union A T' := by
  obtain ⟨V, e1, f1⟩ := union_spec hA hS hT
  rw [h] at e1; cases e1
  obtain ⟨S2, e2, f2⟩ := complement_spec hA hS
  rw [h1] at e2; cases e2
  obtain ⟨T2, e3, f3⟩ := complement_spec hA hT
  rw [h2] at e3; cases e3
  obtain ⟨V, e4, f4⟩ := complement_spec hA f1.1
  obtain ⟨W, e5, f5⟩ := union_spec hA f2.1 f3.1
  rw [e4, e5]
  congr 1
  apply IsSpace.unique f4
  refine f5.congr fun b hb => ?_
  rw [f2.2, f3.2, f1.2]
  have := xor_lt hb (pss_lt A)
  constructor
  · rintro (h | h)
    · exact ⟨this, Or.inl h.2⟩
    · exact ⟨this, Or.inr h.2⟩
  · rintro ⟨_, h | h⟩
    · exact Or.inl ⟨hb, h⟩
    · exact Or.inr ⟨hb, h⟩

example : ∃ T, (⟨[0, 3, 5, 15]⟩ : SubSpace).complement pga3 = some T ∧ WfSub pga3 T := by
  obtain ⟨T, h1, h2, _⟩ := C16_complement wf_pga3 (S := ⟨[0, 3, 5, 15]⟩) (wfSub_of_B (by decide +kernel))
  exact ⟨T, h1, h2⟩

/-- C17 (subspaces): `degenerate()` and `nondegenerate()` split a subspace into the blades whose square under the
algebra product is zero and the others; no blade is lost. -/
theorem C17_split {A : Alg} (hA : WfAlg A) {S : SubSpace} (hS : WfSub A S) :
    (∃ D, S.degenerate A = some D ∧ IsSpace A D fun b => b ∈ S.blades ∧ (A.product b b).2 = 0) ∧
    (∃ N, S.nondegenerate A = some N ∧ IsSpace A N fun b => b ∈ S.blades ∧ (A.product b b).2 ≠ 0) := by
  have hz : ∀ b < 2 ^ A.n, A.bitDot b A.zeros = 0 ↔ (A.product b b).2 ≠ 0 := by
    intro b hb
    rw [ne_eq, C02_zero_iff hA hb, bitDot_eq hA,
      pc_of_lt (lt_of_le_of_lt Nat.and_le_left hb) hA.le_width, pc, Finset.sum_eq_zero_iff]
    push Not
    apply forall_congr'; intro i
    rw [Finset.mem_range]
    apply imp_congr_right; intro hi
    rw [Nat.testBit_and, zeros_testBit hA i hi]
    cases b.testBit i <;> simp
  constructor
  · apply fromBlades_isSpace hA (hS.nodup.filter _)
    intro b
    rw [List.mem_filter]
    constructor
    · rintro ⟨h1, h2⟩
      have := hz b (hS.lt b h1)
      refine ⟨hS.lt b h1, h1, ?_⟩
      by_contra hc
      rw [← ne_eq, ← this] at hc
      simp [hc] at h2
    · rintro ⟨h0, h1, h2⟩
      refine ⟨h1, ?_⟩
      have := hz b h0
      rw [decide_eq_true_eq]
      have : A.bitDot b A.zeros ≠ 0 := fun h => (this.1 h) h2
      omega
  · apply fromBlades_isSpace hA (hS.nodup.filter _)
    intro b
    rw [List.mem_filter, beq_iff_eq]
    constructor
    · rintro ⟨h1, h2⟩
      exact ⟨hS.lt b h1, h1, (hz b (hS.lt b h1)).1 h2⟩
    · rintro ⟨h0, h1, h2⟩
      exact ⟨h1, (hz b h0).2 h2⟩

example : (pga3.product 3 3).2 = 0 ∧ (pga3.product 6 6).2 ≠ 0 ∧ WfSub pga3 ⟨[3, 6]⟩ :=
  ⟨by decide, by decide, wfSub_of_B (by decide +kernel)⟩

theorem biterator_eq (e k : Nat) : biterator e k = (List.range k).map fun i => (e.testBit i).toNat := by
  induction k generalizing e with
  | zero => rfl
  | succ k ih =>
    rw [biterator, ih, List.range_succ_eq_map, List.map_cons, List.map_map]
    congr 1
    · rw [Nat.and_one_is_mod, Nat.toNat_testBit]; simp
    · apply List.map_congr_left
      intro i _
      simp only [Function.comp]
      rw [Nat.testBit_shiftRight, Nat.add_comm, Nat.succ_eq_add_one]

theorem bitPack_biterator {n b : Nat} (hn : 1 ≤ n) (hb : b < 2 ^ n) : bitPack (biterator b n) = some b := by
  have hne : biterator b n ≠ [] := by
    rw [biterator_eq]; intro h; have := congrArg List.length h; simp at this; omega
  rw [bitPack, if_neg hne]
  congr 1
  apply Nat.eq_of_testBit_eq
  intro i
  rw [testBit_pack]
  · rw [biterator_eq, List.getD_eq_getElem?_getD, List.getElem?_map]
    by_cases hi : i < n
    · rw [List.getElem?_range hi]
      cases h : b.testBit i <;> simp [h]
    · rw [List.getElem?_eq_none (by simp; omega), testBit_false_of_lt hb (by omega)]
      simp
  · rw [biterator_eq]
    intro x hx
    obtain ⟨j, _, rfl⟩ := List.mem_map.1 hx
    cases b.testBit j <;> simp

/-- C18: parsing the bit string of a subspace gives the subspace back; every part lists the bits of its blade,
lowest basis vector first, in the order of the blades. -/
theorem C18_bit_str {A : Alg} (hA : WfAlg A) {S : SubSpace} (hS : WfSub A S) :
    A.fromBitLists (S.bitLists A) = some S ∧
    S.bitLists A = S.blades.map fun b => (List.range A.n).map fun i => if b.testBit i then 1 else 0 := by
  constructor
  · have : (S.bitLists A).mapM bitPack = some S.blades := by
      unfold SubSpace.bitLists
      have hlt := hS.lt
      revert hlt
      generalize S.blades = l
      intro hlt
      induction l with
      | nil => rfl
      | cons b l ih =>
        rw [List.map_cons, List.mapM_cons, bitPack_biterator hA.pos (hlt b (by simp)),
          ih (fun x hx => hlt x (by simp [hx]))]; rfl
    rw [Alg.fromBitLists, this, Option.bind_some]
    exact fromBlades_self hA hS
  · apply List.map_congr_left
    intro b _
    rw [biterator_eq]
    apply List.map_congr_left
    intro i _
    cases b.testBit i <;> rfl

example : WfSub pga3 ⟨[0, 3, 5, 15]⟩ ∧ (⟨[0, 3, 5, 15]⟩ : SubSpace).bitLists pga3
    = [[0, 0, 0, 0], [1, 1, 0, 0], [1, 0, 1, 0], [1, 1, 1, 1]] := ⟨wfSub_of_B (by decide +kernel), by decide⟩

theorem vector_eq {A : Alg} (hA : WfAlg A) : A.vector = some ⟨(List.range A.n).map (2 ^ ·)⟩ := by
  obtain ⟨S, h1, h2⟩ := kVector_isSpace hA (g := 1) (k := 1) ⟨hA.pos, Or.inl rfl⟩
  have pow_pop : ∀ i < A.n, popcount (2 ^ i) = 1 := by
    intro i hi
    have hlt : 2 ^ i < 2 ^ A.n := Nat.pow_lt_pow_right (by norm_num) hi
    rw [popcount_of_lt hA.le32 hlt, pc, Finset.sum_eq_single i]
    · simp
    · intro j _ hj; rw [Nat.testBit_two_pow_of_ne (Ne.symm hj)]; rfl
    · intro h; exact absurd (Finset.mem_range.2 hi) h
  have h3 : IsSpace A ⟨(List.range A.n).map (2 ^ ·)⟩ fun b => popcount b = 1 := by
    refine ⟨⟨?_, ?_⟩, ?_⟩
    · intro b hb
      obtain ⟨i, hi, rfl⟩ := List.mem_map.1 hb
      exact Nat.pow_lt_pow_right (by norm_num) (List.mem_range.1 hi)
    · rw [List.pairwise_map]
      refine List.Pairwise.imp_of_mem ?_ (List.pairwise_lt_range (n := A.n))
      intro a b ha hb hab
      rw [List.mem_range] at ha hb
      exact Or.inr ⟨by rw [pow_pop a ha, pow_pop b hb], Nat.pow_lt_pow_right (by norm_num) hab⟩
    · intro b
      simp only [List.mem_map, List.mem_range]
      constructor
      · rintro ⟨i, hi, rfl⟩
        exact ⟨Nat.pow_lt_pow_right (by norm_num) hi, pow_pop i hi⟩
      · rintro ⟨hb, hp⟩
        rw [popcount, Finset.card_eq_one] at hp
        obtain ⟨i, hi⟩ := hp
        have hmem : i ∈ bitSet 32 b := by rw [hi]; simp
        simp only [bitSet, Finset.mem_filter, Finset.mem_range] at hmem
        have hin : i < A.n := by
          by_contra hc
          rw [testBit_false_of_lt hb (by omega)] at hmem
          exact absurd hmem.2 (by simp)
        refine ⟨i, hin, ?_⟩
        apply Nat.eq_of_testBit_eq
        intro j
        by_cases hj : j = i
        · subst hj; rw [hmem.2]; simp
        · rw [Nat.testBit_two_pow_of_ne (Ne.symm hj)]
          symm
          by_cases hj32 : j < 32
          · by_contra hc
            have : j ∈ bitSet 32 b := by
              simp only [bitSet, Finset.mem_filter, Finset.mem_range]
              exact ⟨hj32, by simpa using hc⟩
            rw [hi] at this
            exact hj (Finset.mem_singleton.1 this)
          · exact testBit_false_of_lt hb (by have := hA.le32; omega)
  rw [Alg.vector, h1, IsSpace.unique h2 h3]

/-- The blade spelled by a list of distinct letters: bit `i` is set iff the name of basis vector `i` occurs. -/
def spells (A : Alg) (part : List Char) (b : Nat) : Prop :=
  b < 2 ^ A.n ∧ ∀ i < A.n, b.testBit i = true ↔ ∃ c ∈ part, A.desc.names[i]? = some [c]

theorem sum_pow_testBit {n : Nat} (is : List Nat) (hnd : is.Nodup) (hlt : ∀ i ∈ is, i < n) :
    (is.map (2 ^ ·)).sum < 2 ^ n ∧ ∀ j, (is.map (2 ^ ·)).sum.testBit j = decide (j ∈ is) := by
  have hbit : ∀ j, (is.map (2 ^ ·)).sum.testBit j = decide (j ∈ is) := by
    intro j
    have hp := List.perm_insertionSort (· ≤ ·) is
    have hs : (is.insertionSort (· ≤ ·)).SortedLT :=
      (List.sortedLE_insertionSort.sortedLT_of_nodup (hp.nodup_iff.2 hnd))
    have h1 := Nat.bitIndices_sum_map_two_pow hs
    rw [(hp.map (2 ^ ·)).sum_eq] at h1
    have h2 := Nat.mem_bitIndices (i := j) (n := (is.map (2 ^ ·)).sum)
    rw [h1, hp.mem_iff] at h2
    rw [Bool.eq_iff_iff, decide_eq_true_eq]
    exact h2.symm
  refine ⟨Nat.lt_pow_two_of_testBit _ fun i hi => ?_, hbit⟩
  rw [hbit, decide_eq_false_iff_not]
  intro h
  have := hlt i h; omega

theorem foldl_add_eq {A : Alg} (hA : WfAlg A) (l : List Nat) (a : Nat) (h : a + l.sum < 2 ^ A.n) :
    l.foldl (fun acc b => A.toDtype (acc + b)) a = a + l.sum := by
  induction l generalizing a with
  | nil => simp
  | cons b l ih =>
    rw [List.sum_cons] at h
    rw [List.foldl_cons, toDtype_lt hA (by omega), ih _ (by omega), List.sum_cons]; omega

theorem names_idx {A : Alg} (hA : WfAlg A) {c : Char} (hc : [c] ∈ A.desc.names) : A.desc.names.idxOf [c] < A.n := by
  have := List.idxOf_lt_length_of_mem hc
  rw [hA.names] at this
  exact this

theorem attr_part {A : Alg} (hA : WfAlg A) {part : List Char} (hne : part ≠ [])
    (hnd : part.Nodup) (hc : ∀ c ∈ part, [c] ∈ A.desc.names) (hn : A.desc.names.Nodup) :
    ∃ b, spells A part b ∧
      ((part.mapM fun c => if [c] ∈ A.desc.names then
          ((List.range A.n).map (2 ^ ·))[A.desc.names.idxOf [c]]? else none).bind fun bs =>
        if bs = [] then none else some (bs.foldl (fun acc b => A.toDtype (acc + b)) 0)) = some b := by
  have hm : (part.mapM fun c => if [c] ∈ A.desc.names then
      ((List.range A.n).map (2 ^ ·))[A.desc.names.idxOf [c]]? else none)
      = some ((part.map fun c => A.desc.names.idxOf [c]).map (2 ^ ·)) := by
    clear hnd hne
    induction part with
    | nil => rfl
    | cons c part ih =>
      have h1 := hc c (by simp)
      rw [List.mapM_cons, if_pos h1, ih (fun x hx => hc x (by simp [hx])), List.getElem?_map,
        List.getElem?_range (names_idx hA h1)]
      rfl
  have hnd' : (part.map fun c => A.desc.names.idxOf [c]).Nodup := by
    refine List.Nodup.map_on ?_ hnd
    intro x hx y hy hxy
    have := (List.idxOf_inj (hc x hx)).1 hxy
    simpa using this
  obtain ⟨hb, hbit⟩ := sum_pow_testBit (n := A.n) _ hnd' (by
    intro i hi
    obtain ⟨c, hc', rfl⟩ := List.mem_map.1 hi
    exact names_idx hA (hc c hc'))
  refine ⟨_, ⟨hb, ?_⟩, ?_⟩
  · intro i hi
    rw [hbit, decide_eq_true_eq, List.mem_map]
    constructor
    · rintro ⟨c, hc', rfl⟩
      exact ⟨c, hc', List.getElem?_idxOf (hc c hc')⟩
    · rintro ⟨c, hc', h⟩
      refine ⟨c, hc', ?_⟩
      obtain ⟨h1, h2⟩ := List.getElem?_eq_some_iff.1 h
      rw [← h2]
      exact hn.idxOf_getElem i h1
  · rw [hm, Option.bind_some, if_neg (by simp [hne]), foldl_add_eq hA _ _ (by simpa using hb), Nat.zero_add]

theorem spells_unique {A : Alg} {part : List Char} {a b : Nat} (ha : spells A part a) (hb : spells A part b) : a = b := by
  apply Nat.eq_of_testBit_eq
  intro i
  by_cases hi : i < A.n
  · rw [Bool.eq_iff_iff, ha.2 i hi, hb.2 i hi]
  · rw [testBit_false_of_lt ha.1 (by omega), testBit_false_of_lt hb.1 (by omega)]

/-- C19: the attribute syntax `ga.subspace.xy_z`: when every part is a non-empty list of distinct letters that are
names of basis vectors, the result is the subspace of the blades the parts spell, whatever the order of the letters
within a part or of the parts, and it raises exactly when two parts spell the same blade. -/
theorem C19_attr {A : Alg} (hA : WfAlg A) (hn : A.desc.names.Nodup) {parts : List (List Char)}
    (hp : ∀ p ∈ parts, p ≠ [] ∧ p.Nodup ∧ ∀ c ∈ p, [c] ∈ A.desc.names) :
    ∃ bs, List.Forall₂ (spells A) parts bs ∧
      (bs.Nodup → ∃ S, A.attr parts = some S ∧ IsSpace A S (· ∈ bs)) ∧ (¬ bs.Nodup → A.attr parts = none) := by
  have hm : ∃ bs, List.Forall₂ (spells A) parts bs ∧ (parts.mapM fun part =>
      (part.mapM fun c => if [c] ∈ A.desc.names then
          ((List.range A.n).map (2 ^ ·))[A.desc.names.idxOf [c]]? else none).bind fun bs =>
        if bs = [] then none else some (bs.foldl (fun acc b => A.toDtype (acc + b)) 0)) = some bs := by
    induction parts with
    | nil => exact ⟨[], List.Forall₂.nil, rfl⟩
    | cons p parts ih =>
      obtain ⟨h1, h2, h3⟩ := hp p (by simp)
      obtain ⟨b, hb1, hb2⟩ := attr_part hA h1 h2 h3 hn
      obtain ⟨bs, hbs1, hbs2⟩ := ih (fun q hq => hp q (by simp [hq]))
      refine ⟨b :: bs, List.Forall₂.cons hb1 hbs1, ?_⟩
      rw [List.mapM_cons, hb2, hbs2]; rfl
  obtain ⟨bs, h1, h2⟩ := hm
  have hattr : A.attr parts = A.fromBlades bs := by
    unfold Alg.attr
    rw [vector_eq hA]
    simp only [Option.bind_eq_bind, Option.bind_some]
    rw [h2, Option.bind_some]
  have hlt : ∀ b ∈ bs, b < 2 ^ A.n := by
    intro b hb
    clear h2 hattr hp
    induction h1 with
    | nil => cases hb
    | cons hx _ ih =>
      rcases List.mem_cons.1 hb with rfl | hb
      · exact hx.1
      · exact ih hb
  refine ⟨bs, h1, ?_, ?_⟩
  · intro hnd
    rw [hattr]; exact fromBlades_some hA hlt hnd
  · intro hnd
    rw [hattr]
    cases h : A.fromBlades bs with
    | none => rfl
    | some S => exact absurd ((C12_from_blades hA hlt).1.1 (by rw [h]; rfl)) hnd

/-- C19: a letter that names no basis vector raises. -/
theorem C19_unknown {A : Alg} (hA : WfAlg A) {parts : List (List Char)} {p : List Char} {c : Char}
    (hp : p ∈ parts) (hc : c ∈ p) (h : [c] ∉ A.desc.names) : A.attr parts = none := by
  unfold Alg.attr
  rw [vector_eq hA]
  simp only [Option.bind_eq_bind, Option.bind_some]
  have h1 : (p.mapM fun c => if [c] ∈ A.desc.names then
          ((List.range A.n).map (2 ^ ·))[A.desc.names.idxOf [c]]? else none) = none := by
    clear hp
    induction p with
    | nil => cases hc
    | cons x p ih =>
      rw [List.mapM_cons]
      rcases List.mem_cons.1 hc with rfl | hc
      · rw [if_neg h]; rfl
      · rw [ih hc]
        cases (if [x] ∈ A.desc.names then ((List.range A.n).map (2 ^ ·))[A.desc.names.idxOf [x]]? else none) <;> rfl
  have h2 : (parts.mapM fun part =>
      (part.mapM fun c => if [c] ∈ A.desc.names then
          ((List.range A.n).map (2 ^ ·))[A.desc.names.idxOf [c]]? else none).bind fun bs =>
        if bs = [] then none else some (bs.foldl (fun acc b => A.toDtype (acc + b)) 0)) = none := by
    induction parts with
    | nil => cases hp
    | cons q parts ih =>
      rw [List.mapM_cons]
      rcases List.mem_cons.1 hp with rfl | hp
      · rw [h1]; rfl
      · rw [ih hp]
        cases ((q.mapM fun c => if [c] ∈ A.desc.names then
          ((List.range A.n).map (2 ^ ·))[A.desc.names.idxOf [c]]? else none).bind fun bs =>
        if bs = [] then none else some (bs.foldl (fun acc b => A.toDtype (acc + b)) 0)) <;> rfl
  rw [h2]; rfl

/-- C19, the limit of the syntax: a repeated letter is *not* rejected; `subspace.xx` of the algebra `w0x+y+z+` is the
space of `y` (the bit patterns are added, 2 + 2 = 4). -/
theorem C19_repeated_letter : pga3.attr ["xx".toList] = some ⟨[4]⟩ ∧ pga3.attr ["y".toList] = some ⟨[4]⟩ := by
  decide +kernel

example : WfAlg pga3 ∧ pga3.desc.names.Nodup ∧
    (∀ p ∈ ["xy".toList, "w".toList, "zx".toList], p ≠ [] ∧ p.Nodup ∧ ∀ c ∈ p, [c] ∈ pga3.desc.names) ∧
    pga3.attr ["xy".toList, "w".toList, "zx".toList] = some ⟨[1, 6, 10]⟩ :=
  ⟨wf_pga3, by decide, by decide, by decide +kernel⟩

end Verif.Props
