import Verif.Model.MultivectorFactory
import Verif.Props.Unary
import Verif.Proofs.Products
/-! # Property C46: basis blades by name -/
namespace Verif.Spec

/-- Number of pairs of positions that are out of order. -/
def inversions : List Nat → Nat
  | [] => 0
  | a :: l => (l.filter (· < a)).length + inversions l

end Verif.Spec
namespace Verif.Props
open Model Spec
variable {R : Type} [CommRing R] {A : Alg}

theorem inversions_append (l : List Nat) (k : Nat) : inversions (l ++ [k]) = inversions l + (l.filter (k < ·)).length := by
  induction l with
  | nil => rfl
  | cons a l ih =>
    rw [List.cons_append, inversions, inversions, ih, List.filter_append, List.length_append, List.filter_cons (p := (k < ·))]
    by_cases h : k < a
    · simp [h]; omega
    · simp [h]; omega

theorem inv_two_pow {n b k : Nat} : inv n b (2 ^ k) = ((Finset.range n).filter fun j => b.testBit j = true ∧ k < j).card := by
  rw [inv, Finset.card_filter]
  refine Finset.sum_congr rfl fun j _ => ?_
  have h : pc j (2 ^ k) = if k < j then 1 else 0 := by
    rw [pc]
    by_cases h : k < j
    · rw [if_pos h, Finset.sum_eq_single k]
      · simp
      · intro i _ hi; simp [Nat.testBit_two_pow, Ne.symm hi]
      · intro h'; simp [h] at h'
    · rw [if_neg h]
      apply Finset.sum_eq_zero
      intro i hi
      have := Finset.mem_range.1 hi
      have : k ≠ i := by omega
      simp [Nat.testBit_two_pow, this]
  rw [h]
  cases b.testBit j <;> by_cases h : k < j <;> simp [h]

theorem bladeSpace_eq (hA : WfAlg A) {b : Nat} (hb : b < 2 ^ A.n) : A.bladeSpace b = some ⟨[b]⟩ ∧ WfSub A ⟨[b]⟩ := by
  obtain ⟨S, h1, h2⟩ := fromBlades_some hA (l := [b]) (by simpa using hb) (by simp)
  have h3 := (fromBlades_iff hA _ _).1 h1
  have h4 : S.blades = [b] := by
    have := h3.2.1
    rw [map_toDtype hA (by simpa using hb)] at this
    exact List.perm_singleton.1 this
  have : S = ⟨[b]⟩ := by cases S; simp_all
  subst this
  exact ⟨h1, h2.1⟩

theorem mapM_some {α β : Type} {f : α → Option β} {g : α → β} {l : List α} (h : ∀ a ∈ l, f a = some (g a)) : l.mapM f = some (l.map g) := by
  induction l with
  | nil => rfl
  | cons a l ih =>
    rw [List.mapM_cons, h a (by simp), ih fun x hx => h x (by simp [hx])]
    rfl

theorem basis_eq (hA : WfAlg A) : MVFactory.basis A = some ((List.range A.n).map fun i => (⟨⟨[2 ^ i]⟩, [1]⟩ : MV R)) := by
  rw [MVFactory.basis, MVFactory.basisSpaces, vector_eq hA, Option.bind_eq_bind, Option.bind_eq_bind, Option.bind_some,
    mapM_some (g := fun b => ⟨[b]⟩), Option.bind_some, mapM_some (g := fun S => ⟨S, [1]⟩)]
  · simp [Function.comp_def]
  · intro S hS
    simp only [List.map_map, List.mem_map, List.mem_range, Function.comp] at hS
    obtain ⟨i, -, rfl⟩ := hS
    rfl
  · intro b hb
    obtain ⟨i, hi, rfl⟩ := List.mem_map.1 hb
    exact (bladeSpace_eq hA (Nat.pow_lt_pow_right (by norm_num) (List.mem_range.1 hi))).1

theorem parseLoop_names {names : List (List Char)} (hne : [] ∉ names) (hpre : ∀ m ∈ names, ∀ n ∈ names, m <+: n → m = n) :
    ∀ (toks : List Nat), (∀ t ∈ toks, t < names.length) → names.Nodup →
      parseTokensLoop names [] (toks.flatMap fun t => names.getD t []) = some toks := by
  have step : ∀ (w cur : List Char) (rest : List Char), cur.reverse ++ w ∈ names → w ≠ [] → 
      parseTokensLoop names cur (w ++ rest) = (parseTokensLoop names [] rest).map (names.idxOf (cur.reverse ++ w) :: ·) := by
    intro w
    induction w with
    | nil => intro _ _ _ h; exact absurd rfl h
    | cons c w ih =>
      intro cur rest hm _
      rw [List.cons_append, parseTokensLoop]
      by_cases hw : w = []
      · subst hw
        simp only [List.reverse_cons]
        rw [if_pos hm]
        simp
      · have : (c :: cur).reverse ∉ names := by
          intro h
          have := hpre _ h _ hm ⟨w, by simp⟩
          simp [hw] at this
        rw [if_neg this, ih (c :: cur) rest (by simpa using hm) hw]
        simp
  intro toks
  induction toks with
  | nil => intro _ _; rfl
  | cons t toks ih =>
    intro ht hnd
    have h1 := ht t (by simp)
    rw [List.flatMap_cons, getD_lt _ _ h1, step _ [] _ (by simp) ?_, ih (fun s hs => ht s (by simp [hs])) hnd]
    · simp [hnd.idxOf_getElem]
    · intro h
      exact hne (h ▸ List.getElem_mem h1)

theorem fold_wedge (hA : WfAlg A) (toks : List Nat) (ht : ∀ t ∈ toks, t < A.n) (x : MV R) (hx : WfMV A x) :
    Gives A ((toks.map fun i => (⟨⟨[2 ^ i]⟩, [1]⟩ : MV R)).foldlM (fun x y => x.wedge A y) x)
      (toks.foldl (fun c i => wedgeMap A R c (blade A R (2 ^ i))) (val A x)) := by
  induction toks generalizing x with
  | nil => exact ⟨x, rfl, hx, rfl⟩
  | cons t toks ih =>
    have hlt := Nat.pow_lt_pow_right (a := 2) (by norm_num) (ht t (by simp))
    have hw : WfMV A (⟨⟨[2 ^ t]⟩, [1]⟩ : MV R) := ⟨(bladeSpace_eq hA hlt).2, rfl⟩
    have hv : val A (⟨⟨[2 ^ t]⟩, [1]⟩ : MV R) = blade A R (2 ^ t) := by simp [val, denote]
    rw [List.map_cons, List.foldlM_cons, List.foldl_cons]
    refine (wedge_gives hA hx hw).bind fun z hz ez => ?_
    rw [hv] at ez
    rw [← ez]
    exact ih (fun s hs => ht s (by simp [hs])) z hz

theorem foldl_blade (hA : WfAlg A) (toks : List Nat) (ht : ∀ t ∈ toks, t < A.n) :
    (toks.Nodup → ∃ b < 2 ^ A.n, (∀ i, b.testBit i = true ↔ i ∈ toks) ∧
      toks.foldl (fun c i => wedgeMap A R c (blade A R (2 ^ i))) 1 = ((-1 : R) ^ inversions toks) • blade A R b) ∧
    (¬ toks.Nodup → toks.foldl (fun c i => wedgeMap A R c (blade A R (2 ^ i))) 1 = 0) := by
  induction toks using List.reverseRecOn with
  | nil => exact ⟨fun _ => ⟨0, Nat.two_pow_pos _, by simp, by simp [inversions, blade_zero]⟩, fun h => absurd List.nodup_nil h⟩
  | append_singleton l k ih =>
    obtain ⟨ih1, ih2⟩ := ih fun t h => ht t (by simp [h])
    have hk : k < A.n := ht k (by simp)
    have hlt : 2 ^ k < 2 ^ A.n := Nat.pow_lt_pow_right (by norm_num) hk
    have hz : ∀ x : Cl A R, wedgeMap A R 0 x = 0 := fun x => by
      have := gradedProduct_smul_left (A := A) (fun i j k => i + j = k) (0 : R) 0 x
      simpa [wedgeMap] using this
    rw [List.foldl_append, List.foldl_cons, List.foldl_nil]
    by_cases hl : l.Nodup
    · obtain ⟨b, hb, hbit, e⟩ := ih1 hl
      have hand : b &&& 2 ^ k = 0 ↔ k ∉ l := by
        rw [← hbit k]
        constructor
        · intro h hc
          have := congrArg (·.testBit k) h
          simp [hc] at this
        · intro h
          apply Nat.eq_of_testBit_eq
          intro i
          rw [Nat.testBit_and, Nat.testBit_two_pow, Nat.zero_testBit]
          by_cases hik : k = i
          · subst hik; simp [h]
          · simp [hik]
      rw [e, wedgeMap, gradedProduct_smul_left, ← wedgeMap, wedge_blade hA hb hlt]
      constructor
      · intro hnd
        have hkl : k ∉ l := fun h => by
          rw [List.nodup_append] at hnd
          exact hnd.2.2 k h k (by simp) rfl
        refine ⟨b ^^^ 2 ^ k, Nat.xor_lt_two_pow hb hlt, fun i => ?_, ?_⟩
        · rw [Nat.testBit_xor, Nat.testBit_two_pow]
          by_cases hik : k = i
          · subst hik
            have : b.testBit k = false := by
              rw [← Bool.not_eq_true, hbit]; exact hkl
            simp [this]
          · have : i ≠ k := Ne.symm hik
            simp [hik, hbit i, this]
        · rw [if_pos (hand.2 hkl), smul_smul, ← pow_add, inversions_append, inv_two_pow]
          congr 3
          rw [← List.toFinset_card_of_nodup (hl.filter _)]
          congr 1
          ext j
          simp only [Finset.mem_filter, Finset.mem_range, List.mem_toFinset, List.mem_filter, hbit, decide_eq_true_eq]
          exact ⟨fun h => h.2, fun h => ⟨ht j (by simp [h.1]), h⟩⟩
      · intro hnd
        rw [if_neg, smul_zero]
        rw [hand]
        intro hkl
        exact hnd (List.nodup_append.2 ⟨hl, by simp, by
          intro a ha b hb e
          rw [List.mem_singleton] at hb
          subst hb; subst e
          exact hkl ha⟩)
    · rw [ih2 hl, hz]
      exact ⟨fun h => absurd (List.nodup_append.1 h).1 hl, fun _ => rfl⟩

/-- C46: the attribute named by the basis vectors `toks`, written one after the other, is the wedge of these vectors: up to
the sign of the permutation the blade spanned by them, or zero if a vector occurs twice.  The names must be such that no
name begins with another one; single letters are. -/
theorem C46_named (hA : WfAlg A) (hnd : A.desc.names.Nodup) (hpre : ∀ m ∈ A.desc.names, ∀ n ∈ A.desc.names, m <+: n → m = n)
    (hemp : [] ∉ A.desc.names) {toks : List Nat} (hne : toks ≠ []) (ht : ∀ t ∈ toks, t < A.n) :
    ∃ z : MV R, MVFactory.getattr A (toks.flatMap fun t => A.desc.names.getD t []) = some z ∧ WfMV A z ∧
      (toks.Nodup → ∃ b < 2 ^ A.n, (∀ i, b.testBit i = true ↔ i ∈ toks) ∧ val A z = ((-1 : R) ^ inversions toks) • blade A R b) ∧
      (¬ toks.Nodup → val A z = 0) ∧
      toExt A R (val A z) = (toks.map fun i => extBlade A R (2 ^ i)).prod := by
  have hn : A.desc.names.length = A.n := hA.names
  obtain ⟨t, ts, rfl⟩ := List.exists_cons_of_ne_nil hne
  have htt := ht t (by simp)
  have hlt := Nat.pow_lt_pow_right (a := 2) (by norm_num) htt
  have hw : WfMV A (⟨⟨[2 ^ t]⟩, [1]⟩ : MV R) := ⟨(bladeSpace_eq hA hlt).2, rfl⟩
  have hv : val A (⟨⟨[2 ^ t]⟩, [1]⟩ : MV R) = blade A R (2 ^ t) := by simp [val, denote]
  obtain ⟨z, h1, h2, h3⟩ := fold_wedge hA ts (fun s hs => ht s (by simp [hs])) _ hw
  have hval : val A z = (t :: ts).foldl (fun c i => wedgeMap A R c (blade A R (2 ^ i))) 1 := by
    rw [h3, List.foldl_cons, one_wedge hA, hv]
  refine ⟨z, ?_, h2, ?_, ?_, ?_⟩
  · rw [MVFactory.getattr, basis_eq hA, Option.bind_eq_bind, Option.bind_some, Description.parseTokens,
      parseLoop_names hemp hpre _ (by rwa [hn]) hnd, Option.bind_eq_bind, Option.bind_some,
      mapM_some (g := fun i => (⟨⟨[2 ^ i]⟩, [1]⟩ : MV R)), Option.bind_some]
    · exact h1
    · intro i hi
      simp [ht i hi]
  · rw [hval]
    exact (foldl_blade hA _ ht).1
  · rw [hval]
    exact (foldl_blade hA _ ht).2
  · rw [hval]
    have : ∀ (l : List Nat) (c : Cl A R), (∀ s ∈ l, s < A.n) → toExt A R (l.foldl (fun c i => wedgeMap A R c (blade A R (2 ^ i))) c) =
        toExt A R c * (l.map fun i => extBlade A R (2 ^ i)).prod := by
      intro l
      induction l with
      | nil => intro c _; simp
      | cons i l ih =>
        intro c hl
        have hi := Nat.pow_lt_pow_right (a := 2) (by norm_num) (hl i (by simp))
        rw [List.foldl_cons, ih _ fun s hs => hl s (by simp [hs]), toExt_wedge hA, toExt_blade hi, List.map_cons, List.prod_cons, mul_assoc]
    rw [this _ _ ht, toExt_one, one_mul]

/-- C46: why names must not begin with one another: with basis vectors `a` and `ab`, the name `ab` cannot be parsed. -/
theorem C46_prefix : ∃ A : Alg, Alg.fromStr "a+ab+".toList = some A ∧ (MVFactory.getattr A "ab".toList : Option (MV ℤ)) = none ∧
    (MVFactory.getattr A "a".toList : Option (MV ℤ)) ≠ none :=
  ⟨_, rfl, by decide +kernel⟩

example : ∃ z : MV ℤ, MVFactory.getattr pga3 "zx".toList = some z ∧ val pga3 z = -blade pga3 ℤ 10 := by
  obtain ⟨z, h1, -, h2, -⟩ := C46_named (R := ℤ) wf_pga3 (by decide) (by decide) (by decide) (toks := [3, 1]) (by decide) (by decide)
  obtain ⟨b, hb, hbit, h3⟩ := h2 (by decide)
  have : b = 10 := Nat.eq_of_testBit_eq fun i => by
    rw [Bool.eq_iff_iff, hbit i]
    rcases i with _ | _ | _ | _ | i <;> simp [Nat.testBit_succ]
  subst this
  exact ⟨z, h1, by rw [h3]; simp [inversions]⟩

end Verif.Props
