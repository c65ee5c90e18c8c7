import Verif.Proofs.ProductSign
import Mathlib.Data.List.Basic
import Mathlib.Data.List.Infix
/-! Lemmas about descriptions: parsing, printing, constructors. -/
namespace Verif
open Model

/-- A character that is not one of the three signs. -/
def NotSign (c : Char) : Prop := c ≠ '+' ∧ c ≠ '0' ∧ c ≠ '-'

theorem strToSign_none {c : Char} (h : NotSign c) : strToSign c = none := by
  simp [strToSign, h.1, h.2.1, h.2.2]

theorem notSign_of_none {c : Char} (h : strToSign c = none) : NotSign c := by
  unfold strToSign at h; unfold NotSign
  refine ⟨?_, ?_, ?_⟩ <;> rintro rfl <;> simp at h

theorem strToSign_some {c : Char} {s : Int} (h : strToSign c = some s) :
    signToStr s = some c ∧ (s = 1 ∨ s = -1 ∨ s = 0) ∧ (c = '+' ∨ c = '0' ∨ c = '-') := by
  unfold strToSign at h
  split at h
  · next hc => cases h; simp [signToStr, hc]
  · split at h
    · next hc => cases h; simp [signToStr, hc]
    · split at h
      · next hc => cases h; simp [signToStr, hc]
      · cases h

theorem signToStr_some {s : Int} {c : Char} (h : signToStr s = some c) : strToSign c = some s := by
  unfold signToStr at h
  split at h
  · next hc => cases h; simp [strToSign, hc]
  · split at h
    · next hc => cases h; simp [strToSign, hc]
    · split at h
      · next hc => cases h; simp [strToSign, hc]
      · cases h

theorem signToStr_isSome {s : Int} (h : s = 1 ∨ s = -1 ∨ s = 0) : ∃ c, signToStr s = some c := by
  rcases h with rfl | rfl | rfl <;> exact ⟨_, rfl⟩

/-- Everything the parser guarantees: the parts re-assemble to the input. -/
theorem parseLoop_some {cur s : List Char} {ps : List (List Char × Int)} (hcur : ∀ c ∈ cur, NotSign c)
    (h : parseLoop cur s = some ps) :
    (∀ p ∈ ps, (∀ c ∈ p.1, NotSign c) ∧ (p.2 = 1 ∨ p.2 = -1 ∨ p.2 = 0)) ∧
    ∃ cs, (ps.map (·.2)).mapM signToStr = some cs ∧
      cur.reverse ++ s = ((ps.map (·.1)).zip cs).flatMap (fun p => p.1 ++ [p.2]) := by
  induction s generalizing cur ps with
  | nil =>
    simp only [parseLoop] at h
    split at h
    · next hc => cases h; subst hc; simp
    · cases h
  | cons c s ih =>
    simp only [parseLoop] at h
    cases hc : strToSign c with
    | none =>
      rw [hc] at h
      have := ih (cur := c :: cur) (by
        intro x hx; rw [List.mem_cons] at hx
        rcases hx with rfl | hx
        · exact notSign_of_none hc
        · exact hcur x hx) h
      simpa using this
    | some sg =>
      rw [hc] at h
      simp only [Option.map_eq_some_iff] at h
      obtain ⟨qs, hq, rfl⟩ := h
      obtain ⟨h1, cs, h2, h3⟩ := ih (cur := []) (by simp) hq
      obtain ⟨g1, g2, _⟩ := strToSign_some hc
      refine ⟨?_, c :: cs, ?_, ?_⟩
      · intro p hp
        rw [List.mem_cons] at hp
        rcases hp with rfl | hp
        · exact ⟨by simpa using hcur, g2⟩
        · exact h1 p hp
      · rw [List.map_cons, List.mapM_cons, g1, h2]; rfl
      · simp only [List.map_cons, List.zip_cons_cons, List.flatMap_cons, ← h3]
        simp

/-- The parser inverts the printer. -/
theorem parseLoop_print (ps : List (List Char × Int)) (cs : List Char)
    (hn : ∀ p ∈ ps, ∀ c ∈ p.1, NotSign c) (hcs : (ps.map (·.2)).mapM signToStr = some cs) :
    parseLoop [] (((ps.map (·.1)).zip cs).flatMap (fun p => p.1 ++ [p.2])) = some ps := by
  have key : ∀ (w cur rest : List Char) (c : Char) (s : Int), (∀ x ∈ w, NotSign x) → strToSign c = some s →
      parseLoop cur (w ++ c :: rest) = (parseLoop [] rest).map ((cur.reverse ++ w, s) :: ·) := by
    intro w
    induction w with
    | nil => intro cur rest c s _ hc; simp [parseLoop, hc]
    | cons x w ih =>
      intro cur rest c s hw hc
      rw [List.cons_append, parseLoop, strToSign_none (hw x (by simp))]
      simp only
      rw [ih _ _ _ s (fun y hy => hw y (by simp [hy])) hc]
      simp
  induction ps generalizing cs with
  | nil => simp [parseLoop]
  | cons p ps ih =>
    rw [List.map_cons, List.mapM_cons] at hcs
    cases hc : signToStr p.2 with
    | none => rw [hc] at hcs; cases hcs
    | some c =>
      cases hc' : (ps.map (·.2)).mapM signToStr with
      | none => rw [hc, hc'] at hcs; cases hcs
      | some cs' =>
        rw [hc, hc'] at hcs
        cases hcs
        simp only [List.map_cons, List.zip_cons_cons, List.flatMap_cons, List.append_assoc,
          List.cons_append, List.nil_append]
        rw [key _ _ _ _ p.2 (hn p (by simp)) (signToStr_some hc),
          ih cs' (fun q hq => hn q (by simp [hq])) hc']
        simp

theorem fromStr_some {s : List Char} {d : Description} (h : Description.fromStr s = some d) :
    d.sig ≠ [] ∧ d.names.length = d.sig.length ∧ (∀ n ∈ d.names, ∀ c ∈ n, NotSign c) ∧
    (∀ x ∈ d.sig, x = 1 ∨ x = -1 ∨ x = 0) ∧ d.descriptionStr = some s := by
  unfold Description.fromStr at h
  split at h
  · cases h
  · cases h
  · next p ps hp =>
    cases h
    obtain ⟨h1, cs, h2, h3⟩ := parseLoop_some (by simp) hp
    refine ⟨by simp, by simp, ?_, ?_, ?_⟩
    · intro n hn c hc
      obtain ⟨q, hq, rfl⟩ := List.mem_map.1 hn
      exact (h1 q hq).1 c hc
    · intro x hx
      obtain ⟨q, hq, rfl⟩ := List.mem_map.1 hx
      exact (h1 q hq).2
    · simp only [Description.descriptionStr, Description.signatureStr, h2, Option.map_some, ← h3]
      simp

theorem fromStr_descriptionStr {d : Description} {s : List Char} (hne : d.sig ≠ [])
    (hl : d.names.length = d.sig.length) (hn : ∀ n ∈ d.names, ∀ c ∈ n, NotSign c)
    (hs : d.descriptionStr = some s) : Description.fromStr s = some d := by
  simp only [Description.descriptionStr, Description.signatureStr, Option.map_eq_some_iff] at hs
  obtain ⟨cs, hcs, rfl⟩ := hs
  have h1 : (d.names.zip d.sig).map (·.1) = d.names := List.map_fst_zip (by omega)
  have h2 : (d.names.zip d.sig).map (·.2) = d.sig := List.map_snd_zip (by omega)
  have := parseLoop_print (d.names.zip d.sig) cs (by
    intro p hp c hc
    exact hn p.1 (List.of_mem_zip hp).1 c hc) (by rw [h2]; exact hcs)
  rw [h1] at this
  unfold Description.fromStr
  rw [this]
  cases hz : d.names.zip d.sig with
  | nil =>
    exfalso
    rw [hz] at h2; simp at h2; exact hne h2
  | cons p ps =>
    rw [hz] at h1 h2
    simp only [h1, h2]

theorem mapM_signToStr {l : List Int} (h : ∀ x ∈ l, x = 1 ∨ x = -1 ∨ x = 0) : ∃ cs, l.mapM signToStr = some cs := by
  induction l with
  | nil => exact ⟨[], rfl⟩
  | cons x xs ih =>
    obtain ⟨c, hc⟩ := signToStr_isSome (h x (by simp))
    obtain ⟨cs, hcs⟩ := ih (fun y hy => h y (by simp [hy]))
    exact ⟨c :: cs, by rw [List.mapM_cons, hc, hcs]; rfl⟩

theorem parseLoop_isSome_iff (cur s : List Char) :
    (parseLoop cur s).isSome ↔ (s = [] ∧ cur = []) ∨ ∃ c, s.getLast? = some c ∧ ¬ NotSign c := by
  induction s generalizing cur with
  | nil => by_cases h : cur = [] <;> simp [parseLoop, h]
  | cons c s ih =>
    rw [parseLoop]
    cases hc : strToSign c with
    | none =>
      simp only [ih, List.cons_ne_nil, and_false, false_and, false_or, List.getLast?_cons]
      constructor
      · rintro ⟨d, hd, hn⟩; exact ⟨d, by simp [hd], hn⟩
      · rintro ⟨d, hd, hn⟩
        cases hl : s.getLast? with
        | none =>
          rw [hl] at hd
          simp at hd; subst hd
          exact absurd (notSign_of_none hc) hn
        | some e => rw [hl] at hd; exact ⟨d, by simpa using hd, hn⟩
    | some sg =>
      simp only [Option.isSome_map, ih, and_true, List.cons_ne_nil, false_and, false_or, List.getLast?_cons]
      have hcs : ¬ NotSign c := by
        intro h; rw [strToSign_none h] at hc; cases hc
      constructor
      · rintro (rfl | ⟨d, hd, hn⟩)
        · exact ⟨c, by simp, hcs⟩
        · exact ⟨d, by simp [hd], hn⟩
      · rintro ⟨d, hd, hn⟩
        cases hl : s.getLast? with
        | none => left; exact List.getLast?_eq_none_iff.1 hl
        | some e => right; rw [hl] at hd; exact ⟨d, by simpa using hd, hn⟩

theorem minimalUintType_isSome (n : Nat) : (minimalUintType n).isSome ↔ 1 ≤ n ∧ n ≤ 32 := by
  unfold minimalUintType
  simp only
  split
  · simp; omega
  · split
    · simp; omega
    · split
      · simp; omega
      · split
        · simp; omega
        · simp; omega

theorem minimalUintType_some {n : Nat} {t : Nat × Nat} (h : minimalUintType n = some t) :
    n ≤ 8 * t.1 ∧ t.1 ≤ t.2 ∧ n ≤ 8 * t.2 ∧ t.2 ≤ 4 ∧ (t.2 = 1 ∨ t.2 = 2 ∨ t.2 = 4) := by
  unfold minimalUintType at h
  simp only at h
  split at h
  · cases h; simp; omega
  · split at h
    · cases h; simp; omega
    · split at h
      · cases h; simp; omega
      · split at h
        · cases h; simp; omega
        · cases h

theorem wf_ofDesc {d : Description} {A : Alg} (h : Alg.ofDesc d = some A)
    (hl : d.names.length = d.sig.length) (hs : ∀ x ∈ d.sig, x = 1 ∨ x = -1 ∨ x = 0) :
    A.desc = d ∧ WfAlg A := by
  unfold Alg.ofDesc at h
  rw [Option.map_eq_some_iff] at h
  obtain ⟨t, ht, rfl⟩ := h
  have h1 := minimalUintType_some ht
  have h2 := (minimalUintType_isSome d.nDimensions).1 (by rw [ht]; rfl)
  exact ⟨rfl, { pos := h2.1, le32 := h2.2, le_width := h1.2.2.1, item_le := h1.2.2.2.1, sig := hs, names := hl }⟩

/-- The index counted by `pc` of an append-like shift. -/
theorem getD_append_sig (l m : List Int) (i : Nat) :
    (l ++ m).getD i 0 = if i < l.length then l.getD i 0 else m.getD (i - l.length) 0 := by
  simp only [List.getD_eq_getElem?_getD, List.getElem?_append]
  split <;> rfl

end Verif
