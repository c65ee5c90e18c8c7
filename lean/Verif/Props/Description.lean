import Verif.Proofs.Description
/-! # Properties C06 – C10: descriptions, constructors, product of algebras -/
namespace Verif.Props
open Model Spec

/-- C06: `from_str` succeeds exactly on the strings whose last character is a sign. -/
theorem C06_accepts (s : List Char) :
    (Description.fromStr s).isSome ↔ ∃ c, s.getLast? = some c ∧ (c = '+' ∨ c = '0' ∨ c = '-') := by
  have h1 : (Description.fromStr s).isSome ↔ (parseLoop [] s).isSome ∧ s ≠ [] := by
    unfold Description.fromStr
    cases h : parseLoop [] s with
    | none => simp
    | some ps =>
      cases ps with
      | nil =>
        obtain ⟨_, cs, h2, h3⟩ := parseLoop_some (by simp) h
        simp at h3; simp [h3]
      | cons p ps =>
        simp
        rintro rfl
        simp [parseLoop] at h
  rw [h1, parseLoop_isSome_iff]
  constructor
  · rintro ⟨h | ⟨c, hc, hn⟩, hne⟩
    · exact absurd h.1 hne
    · refine ⟨c, hc, ?_⟩
      unfold NotSign at hn; tauto
  · rintro ⟨c, hc, hn⟩
    refine ⟨Or.inr ⟨c, hc, ?_⟩, ?_⟩
    · unfold NotSign; tauto
    · rintro rfl; simp at hc

/-- C06: what a parsed description contains; it prints back to the very string it was parsed from. -/
theorem C06_parsed {s : List Char} {d : Description} (h : Description.fromStr s = some d) :
    d.sig ≠ [] ∧ d.names.length = d.sig.length ∧
    (∀ n ∈ d.names, '+' ∉ n ∧ '0' ∉ n ∧ '-' ∉ n) ∧
    (∀ x ∈ d.sig, x = 1 ∨ x = -1 ∨ x = 0) ∧ d.descriptionStr = some s := by
  obtain ⟨h1, h2, h3, h4, h5⟩ := fromStr_some h
  refine ⟨h1, h2, ?_, h4, h5⟩
  intro n hn
  refine ⟨fun hc => (h3 n hn _ hc).1 rfl, fun hc => (h3 n hn _ hc).2.1 rfl, fun hc => (h3 n hn _ hc).2.2 rfl⟩

/-- C06: printing a description whose names contain no sign character and parsing it again gives it back. -/
theorem C06_round_trip {d : Description} (hne : d.sig ≠ []) (hl : d.names.length = d.sig.length)
    (hn : ∀ n ∈ d.names, '+' ∉ n ∧ '0' ∉ n ∧ '-' ∉ n) (hs : ∀ x ∈ d.sig, x = 1 ∨ x = -1 ∨ x = 0) :
    ∃ s, d.descriptionStr = some s ∧ Description.fromStr s = some d := by
  obtain ⟨cs, hcs⟩ := mapM_signToStr hs
  refine ⟨_, by rw [Description.descriptionStr, Description.signatureStr, hcs]; rfl, ?_⟩
  apply fromStr_descriptionStr hne hl
  · intro n h c hc
    have := hn n h
    exact ⟨fun e => this.1 (e ▸ hc), fun e => this.2.1 (e ▸ hc), fun e => this.2.2 (e ▸ hc)⟩
  · rw [Description.descriptionStr, Description.signatureStr, hcs]; rfl

example : Description.fromStr "x+yy-w0".toList
    = some { names := ["x".toList, "yy".toList, "w".toList], sig := [1, -1, 0] } := by decide
example : Description.fromStr "x+y".toList = none ∧ Description.fromStr "".toList = none := by decide
example : pga3.desc.sig ≠ [] ∧ pga3.desc.names.length = pga3.desc.sig.length ∧
    (∀ n ∈ pga3.desc.names, '+' ∉ n ∧ '0' ∉ n ∧ '-' ∉ n) ∧ (∀ x ∈ pga3.desc.sig, x = 1 ∨ x = -1 ∨ x = 0) := by
  decide

/-- Every algebra built by `from_str` is well formed (used by all later theorems). -/
theorem wf_fromStr {s : List Char} {A : Alg} (h : Alg.fromStr s = some A) : WfAlg A := by
  unfold Alg.fromStr at h
  rw [Option.bind_eq_some_iff] at h
  obtain ⟨d, hd, h⟩ := h
  obtain ⟨_, h2, _, h4, _⟩ := fromStr_some hd
  exact (wf_ofDesc h h2 h4).2

/-- Every algebra built by `from_pqr` is well formed. -/
theorem wf_fromPqr {p q r : Nat} {A : Alg} (h : Alg.fromPqr p q r = some A) : WfAlg A := wf_fromStr h

/-- Every product of two algebras is well formed. -/
theorem wf_mul {A B C : Alg} (h : A.mul B = some C) : WfAlg C := by
  unfold Alg.mul Description.mul at h
  split at h
  · cases h
  · simp only [Option.bind_eq_bind, Option.bind_eq_some_iff] at h
    obtain ⟨d, ⟨s, hs, t, ht, hd⟩, h⟩ := h
    obtain ⟨_, h2, _, h4, _⟩ := fromStr_some hd
    exact (wf_ofDesc h h2 h4).2

example : ∃ A, Alg.fromStr "x+y+z+w0".toList = some A ∧ A.n = 4 := ⟨_, rfl, by decide⟩

theorem zip_flatMap_fromStr (cs : List Char) (ss : List Char) (sg : List Int)
    (hcs : ∀ c ∈ cs, NotSign c) (h : sg.mapM signToStr = some ss) (hl : ss.length ≤ cs.length)
    (hne : sg ≠ []) :
    Description.fromStr ((cs.zip ss).flatMap fun p => [p.1, p.2])
      = some { names := (cs.take ss.length).map ([·]), sig := sg } := by
  have hlen : ss.length = sg.length := by
    clear hl hne
    induction sg generalizing ss with
    | nil => cases h; rfl
    | cons x xs ih =>
      rw [List.mapM_cons] at h
      cases hx : signToStr x with
      | none => rw [hx] at h; cases h
      | some c =>
        cases hxs : xs.mapM signToStr with
        | none => rw [hx, hxs] at h; cases h
        | some cs => rw [hx, hxs] at h; cases h; simp [ih cs hxs]
  apply fromStr_descriptionStr
  · exact hne
  · simp only [List.length_map, List.length_take]; omega
  · intro n hn c hc
    obtain ⟨x, hx, rfl⟩ := List.mem_map.1 hn
    simp at hc; subst hc
    exact hcs _ (List.mem_of_mem_take hx)
  · simp only [Description.descriptionStr, Description.signatureStr, h, Option.map_some]
    congr 1
    have : ∀ (cs ss : List Char), ss.length ≤ cs.length →
        List.flatMap (fun p => p.1 ++ [p.2]) ((List.map (fun x => [x]) (List.take ss.length cs)).zip ss)
        = List.flatMap (fun p => [p.1, p.2]) (cs.zip ss) := by
      intro cs
      induction cs with
      | nil => intro ss h; simp
      | cons c cs ih =>
        intro ss h
        cases ss with
        | nil => simp
        | cons s ss =>
          have := ih ss (by simpa using h)
          rw [List.map_take] at this
          simp [this]
    exact this cs ss hl

theorem mapM_replicate (p q r : Nat) :
    (List.replicate p (1:Int) ++ List.replicate q (-1) ++ List.replicate r 0).mapM signToStr
      = some (List.replicate p '+' ++ List.replicate q '-' ++ List.replicate r '0') := by
  have h : ∀ (l : List Int) (f : Int → Char), (∀ x ∈ l, signToStr x = some (f x)) →
      l.mapM signToStr = some (l.map f) := by
    intro l f
    induction l with
    | nil => intro _; rfl
    | cons x xs ih => intro hx; rw [List.mapM_cons, hx x (by simp), ih (fun y hy => hx y (by simp [hy]))]; rfl
  rw [h _ (fun x => if x = 1 then '+' else if x = -1 then '-' else '0')]
  · simp
  · intro x hx
    simp only [List.mem_append, List.mem_replicate] at hx
    rcases hx with (⟨_, rfl⟩ | ⟨_, rfl⟩) | ⟨_, rfl⟩ <;> decide

theorem chars_notSign : ∀ c ∈ chars, NotSign c := by
  have : ∀ c ∈ chars, c ≠ '+' ∧ c ≠ '0' ∧ c ≠ '-' := by decide
  exact this

/-- C07: `from_pqr` gives the requested signature, positives first, for every request that fits the alphabet. -/
theorem C07_from_pqr (p q r : Nat) (h1 : 1 ≤ p + q + r) (h2 : p + q + r ≤ 26) :
    ∃ d, Description.fromPqr p q r = some d ∧
      d.sig = List.replicate p 1 ++ List.replicate q (-1) ++ List.replicate r 0 ∧
      d.pqr = (p, q, r) ∧ d.nDimensions = p + q + r ∧ d.names.Nodup := by
  have := zip_flatMap_fromStr chars _ _ chars_notSign (mapM_replicate p q r) (by
    simp [show chars.length = 26 by decide]; omega) (by
      intro h; have := congrArg List.length h; simp at this; omega)
  refine ⟨_, this, rfl, ?_, ?_, ?_⟩
  · simp [Description.pqr, Description.positives, Description.negatives, Description.zeros]
  · simp [Description.nDimensions]; omega
  · refine List.Nodup.map (fun a b h => by simpa using h) ((by decide : chars.Nodup).sublist (List.take_sublist _ _))

example : Description.fromPqr 3 0 1 = some { names := [['a'], ['b'], ['c'], ['d']], sig := [1, 1, 1, 0] } := by
  decide

/-- C07: beyond 26 basis vectors `from_pqr` does not fail: it silently keeps the first 26 signs. -/
theorem C07_truncates (p q r : Nat) (h : 26 < p + q + r) :
    ∃ d, Description.fromPqr p q r = some d ∧ d.nDimensions = 26 ∧
      d.sig = (List.replicate p (1:Int) ++ List.replicate q (-1) ++ List.replicate r 0).take 26 := by
  obtain ⟨sg, hsg⟩ : ∃ sg, sg = List.replicate p (1:Int) ++ List.replicate q (-1) ++ List.replicate r 0 := ⟨_, rfl⟩
  obtain ⟨ss, hss⟩ : ∃ ss, ss = List.replicate p '+' ++ List.replicate q '-' ++ List.replicate r '0' := ⟨_, rfl⟩
  have hm := mapM_replicate p q r
  rw [← hsg, ← hss] at hm
  have htake : ∀ (k : Nat) (l : List Int) (cs : List Char), l.mapM signToStr = some cs →
      (l.take k).mapM signToStr = some (cs.take k) := by
    intro k l
    induction l generalizing k with
    | nil => intro cs h; cases h; simp
    | cons x xs ih =>
      intro cs h
      rw [List.mapM_cons] at h
      cases hx : signToStr x with
      | none => rw [hx] at h; cases h
      | some c =>
        cases hxs : xs.mapM signToStr with
        | none => rw [hx, hxs] at h; cases h
        | some cs' =>
          rw [hx, hxs] at h; cases h
          cases k with
          | zero => simp
          | succ k => rw [List.take_succ_cons, List.mapM_cons, hx, ih k cs' hxs]; rfl
  have hlen : ss.length = p + q + r := by rw [hss]; simp; omega
  have hlen2 : sg.length = p + q + r := by rw [hsg]; simp; omega
  have := zip_flatMap_fromStr chars _ _ chars_notSign (htake 26 _ _ hm) (by
    simp [show chars.length = 26 by decide]) (by
      intro h; have := congrArg List.length h; rw [List.length_take, hlen2] at this; simp at this; omega)
  refine ⟨⟨(chars.take (ss.take 26).length).map ([·]), sg.take 26⟩, ?_, ?_, ?_⟩
  · unfold Description.fromPqr Description.fromSignature
    rw [← hss]
    have hz : chars.zip ss = chars.zip (ss.take 26) := by
      conv_lhs => rw [← List.take_append_drop 26 ss]
      rw [show chars = chars ++ [] by simp, List.zip_append (by
        simp [show chars.length = 26 by decide]; omega)]
      simp
    rw [hz]
    exact this
  · simp [Description.nDimensions]; omega
  · simp [hsg]

example : (26 : Nat) < 20 + 10 + 2 := by norm_num

/-- C08: an algebra exists exactly for the dimensions 1..32. -/
theorem C08_constructible (d : Description) :
    (Alg.ofDesc d).isSome ↔ 1 ≤ d.nDimensions ∧ d.nDimensions ≤ 32 := by
  rw [Alg.ofDesc, Option.isSome_map, minimalUintType_isSome]

/-- C08: the blade dtype holds every blade, and every index into a table over distinct blades. -/
theorem C08_dtype {d : Description} {A : Alg} (h : Alg.ofDesc d = some A) :
    (∀ b < 2 ^ A.n, A.toDtype b = b) ∧
    (∀ (S : List Nat) (i : Nat), S.Nodup → (∀ b ∈ S, b < 2 ^ A.n) → i < S.length → A.toDtype i = i) := by
  unfold Alg.ofDesc at h
  rw [Option.map_eq_some_iff] at h
  obtain ⟨t, ht, rfl⟩ := h
  have h1 := minimalUintType_some ht
  have key : ∀ b < 2 ^ d.nDimensions, b % 2 ^ (8 * t.2) = b := fun b hb =>
    Nat.mod_eq_of_lt (lt_of_lt_of_le hb (Nat.pow_le_pow_right (by norm_num) h1.2.2.1))
  refine ⟨key, ?_⟩
  intro S i hS hb hi
  apply key
  have : S.length ≤ 2 ^ d.nDimensions := by
    rw [← List.toFinset_card_of_nodup hS, ← Finset.card_range (2 ^ d.nDimensions)]
    apply Finset.card_le_card
    intro x hx
    rw [List.mem_toFinset] at hx
    exact Finset.mem_range.2 (hb x hx)
  omega

example : (Alg.ofDesc pga3.desc).isSome ∧ [0, 5, 15].Nodup ∧ (∀ b ∈ [0, 5, 15], b < 2 ^ 4) := by decide

/-- C09: `A * B` is defined exactly when no basis name is shared and the dimensions fit; its names and signature
are the concatenations. -/
theorem C09_mul {s t : List Char} {A B : Alg} (hA : Alg.fromStr s = some A) (hB : Alg.fromStr t = some B) :
    ((A.mul B).isSome ↔ (∀ n ∈ A.desc.names, n ∉ B.desc.names) ∧ A.n + B.n ≤ 32) ∧
    ∀ C, A.mul B = some C → C.desc.names = A.desc.names ++ B.desc.names ∧
      C.desc.sig = A.desc.sig ++ B.desc.sig ∧ C.n = A.n + B.n := by
  unfold Alg.fromStr at hA hB
  rw [Option.bind_eq_some_iff] at hA hB
  obtain ⟨d, hd, hA⟩ := hA
  obtain ⟨e, he, hB⟩ := hB
  obtain ⟨d1, d2, d3, d4, d5⟩ := fromStr_some hd
  obtain ⟨e1, e2, e3, e4, e5⟩ := fromStr_some he
  have eA := (wf_ofDesc hA d2 d4).1
  have eB := (wf_ofDesc hB e2 e4).1
  have hm : ∀ D, Description.mul d e = some D → D = ⟨d.names ++ e.names, d.sig ++ e.sig⟩ := by
    intro D hD
    unfold Description.mul at hD
    split at hD
    · cases hD
    · simp only [d5, e5, Option.bind_eq_bind, Option.bind_some] at hD
      have hp := fromStr_descriptionStr (d := ⟨d.names ++ e.names, d.sig ++ e.sig⟩) (s := s ++ t) (by simp [d1])
        (by simp [d2, e2]) (by
          intro n hn c hc
          rw [List.mem_append] at hn
          rcases hn with hn | hn
          · exact d3 n hn c hc
          · exact e3 n hn c hc) (by
          simp only [Description.descriptionStr, Description.signatureStr, Option.map_eq_some_iff] at d5 e5 ⊢
          obtain ⟨cs, hcs, rfl⟩ := d5
          obtain ⟨cs', hcs', rfl⟩ := e5
          refine ⟨cs ++ cs', by rw [List.mapM_append, hcs, hcs']; rfl, ?_⟩
          have hl : d.names.length = cs.length := by
            rw [d2]
            clear * - hcs
            generalize d.sig = l at hcs
            induction l generalizing cs with
            | nil => cases hcs; rfl
            | cons x xs ih =>
              rw [List.mapM_cons] at hcs
              cases hx : signToStr x with
              | none => rw [hx] at hcs; cases hcs
              | some c =>
                cases hxs : xs.mapM signToStr with
                | none => rw [hx, hxs] at hcs; cases hcs
                | some cs => rw [hx, hxs] at hcs; cases hcs; simp [ih cs hxs]
          rw [List.zip_append hl, List.flatMap_append])
      rw [hp] at hD; exact (Option.some.inj hD).symm
  have hdef : (Description.mul d e).isSome ↔ ∀ n ∈ d.names, n ∉ e.names := by
    unfold Description.mul
    by_cases hh : ∀ n ∈ d.names, n ∉ e.names
    · have : (d.names.any fun x => e.names.contains x) = false := by simpa using hh
      simp only [this, d5, e5, Option.bind_eq_bind, Option.bind_some]
      simp only [Bool.false_eq_true, if_false]
      refine iff_of_true ?_ hh
      rw [C06_accepts]
      obtain ⟨c, hc, hs⟩ := (C06_accepts t).1 (by rw [he]; rfl)
      exact ⟨c, by rw [List.getLast?_append, hc]; rfl, hs⟩
    · have : (d.names.any fun x => e.names.contains x) = true := by
        simp only [List.any_eq_true, List.contains_iff_mem]
        push Not at hh
        simpa using hh
      simp only [this, if_true, Option.isSome_none, Bool.false_eq_true, false_iff]
      exact hh
  have hnA : A.n = d.sig.length := by rw [Alg.n, eA]; rfl
  have hnB : B.n = e.sig.length := by rw [Alg.n, eB]; rfl
  constructor
  · unfold Alg.mul
    rw [eA, eB]
    cases hD : Description.mul d e with
    | none =>
      rw [hD] at hdef
      simp only [Option.bind_none, Option.isSome_none, Bool.false_eq_true, false_iff] at hdef ⊢
      tauto
    | some D =>
      rw [hD] at hdef
      rw [Option.bind_some, C08_constructible, hm D hD]
      simp only [Description.nDimensions, List.length_append]
      have := hdef.1 rfl
      have hp : 1 ≤ d.sig.length := List.length_pos_iff.2 d1
      rw [hnA, hnB]
      constructor
      · rintro ⟨_, h⟩; exact ⟨this, h⟩
      · rintro ⟨_, h⟩; exact ⟨by omega, h⟩
  · intro C hC
    unfold Alg.mul at hC
    rw [eA, eB, Option.bind_eq_some_iff] at hC
    obtain ⟨D, hD, hC⟩ := hC
    have hDD := hm D hD
    have hCd : C.desc = D := by
      unfold Alg.ofDesc at hC
      rw [Option.map_eq_some_iff] at hC
      obtain ⟨_, _, rfl⟩ := hC; rfl
    refine ⟨by rw [hCd, hDD, eA, eB], by rw [hCd, hDD, eA, eB], ?_⟩
    rw [hnA, hnB, Alg.n, hCd, hDD]; simp [Description.nDimensions]

theorem metric_append {A B C : Alg} (h : C.desc.sig = A.desc.sig ++ B.desc.sig) (i : Nat) :
    metric C ℤ i = if i < A.n then metric A ℤ i else metric B ℤ (i - A.n) := by
  have hn : A.n = A.desc.sig.length := rfl
  simp only [metric, h, getD_append_sig, hn]
  split <;> rfl

theorem pc_add_shift (n m b : Nat) : pc (n + m) (b <<< n) = pc m b := by
  rw [pc, Finset.sum_range_add, pc]
  have h1 : ∑ x ∈ Finset.range n, ((b <<< n).testBit x).toNat = 0 := by
    apply Finset.sum_eq_zero
    intro i hi
    rw [Finset.mem_range] at hi
    rw [Nat.testBit_shiftLeft]
    simp [hi]
  rw [h1, zero_add]
  apply Finset.sum_congr rfl
  intro i _
  rw [Nat.testBit_shiftLeft]
  simp

/-- C09: in a product algebra, blades that come from `A` multiply as in `A`, blades that come from `B` (shifted up
by the dimension of `A`) as in `B`, and a blade of `A` and a blade of `B` commute up to the sign
`(-1)^(grade * grade)`. -/
theorem C09_products {s t : List Char} {A B C : Alg} (hs : Alg.fromStr s = some A) (ht : Alg.fromStr t = some B)
    (hC : A.mul B = some C) {a b : Nat} (a' b' : Nat) (ha : a < 2 ^ A.n) (hb : b < 2 ^ B.n) :
    C.product a a' = A.product a a' ∧
    C.product (b <<< A.n) (b' <<< A.n) = ((B.product b b').1 <<< A.n, (B.product b b').2) ∧
    C.product a (b <<< A.n) = (a ^^^ (b <<< A.n), 1) ∧
    C.product (b <<< A.n) a = (a ^^^ (b <<< A.n), (-1) ^ (A.grade a * B.grade b)) := by
  have hsig : C.desc.sig = A.desc.sig ++ B.desc.sig := ((C09_mul hs ht).2 C hC).2.1
  have hA := wf_fromStr hs
  have hB := wf_fromStr ht
  have hCw := wf_mul hC
  have hn : C.n = A.n + B.n := by
    simp only [Alg.n, Description.nDimensions, hsig, List.length_append]
  have lt1 : ∀ {x}, x < 2 ^ A.n → x < 2 ^ C.n := fun hx =>
    lt_of_lt_of_le hx (Nat.pow_le_pow_right (by norm_num) (by omega))
  have lt2 : ∀ {x}, x < 2 ^ B.n → x <<< A.n < 2 ^ C.n := by
    intro x hx
    rw [hn, pow_add, Nat.shiftLeft_eq, Nat.mul_comm]
    exact Nat.mul_lt_mul_of_pos_left hx (Nat.two_pow_pos _)
  have hlow : ∀ {x}, x < 2 ^ A.n → ∀ i, x.testBit (A.n + i) = false := fun hx i =>
    testBit_false_of_lt hx (by omega)
  have hhigh : ∀ (x i : Nat), (x <<< A.n).testBit (A.n + i) = x.testBit i := by
    intro x i; rw [Nat.testBit_shiftLeft]; simp
  have hhigh0 : ∀ (x i : Nat), i < A.n → (x <<< A.n).testBit i = false := by
    intro x i hi; rw [Nat.testBit_shiftLeft]; simp [hi]
  have sgnZ : ∀ {D : Alg} (hD : WfAlg D) (x y : Nat), sgn D x y = (-1)^(inv D.n x y) * mprod (metric D ℤ) D.n x y := by
    intro D hD x y
    have := sgn_cast hD ℤ x y
    simpa using this
  have hmet := metric_append hsig
  refine ⟨?_, ?_, ?_, ?_⟩
  · rw [product_eq hCw (lt1 ha), product_eq hA ha, sgnZ hCw, sgnZ hA]
    congr 2
    · congr 1
      rw [hn, inv, Finset.sum_range_add, inv]
      rw [Finset.sum_eq_zero (s := Finset.range B.n)]
      · simp
      · intro i _; rw [hlow ha]; simp
    · rw [hn, mprod, Finset.prod_range_add, mprod]
      rw [Finset.prod_eq_one (s := Finset.range B.n)]
      · rw [mul_one]
        apply Finset.prod_congr rfl
        intro i hi; rw [Finset.mem_range] at hi
        rw [hmet, if_pos hi]
      · intro i _; rw [hlow ha]; simp
  · rw [product_eq hCw (lt2 hb), product_eq hB hb, sgnZ hCw, sgnZ hB, ← Nat.shiftLeft_xor_distrib]
    congr 2
    · congr 1
      rw [hn, inv, Finset.sum_range_add, inv]
      rw [Finset.sum_eq_zero (s := Finset.range A.n)]
      · rw [zero_add]
        apply Finset.sum_congr rfl
        intro i _; rw [hhigh, pc_add_shift]
      · intro i hi; rw [Finset.mem_range] at hi; rw [hhigh0 _ _ hi]; simp
    · rw [hn, mprod, Finset.prod_range_add, mprod]
      rw [Finset.prod_eq_one (s := Finset.range A.n)]
      · rw [one_mul]
        apply Finset.prod_congr rfl
        intro i hi
        rw [hhigh, hhigh, hmet, if_neg (show ¬ (A.n + i < A.n) by omega), Nat.add_sub_cancel_left]
      · intro i hi; rw [Finset.mem_range] at hi; rw [hhigh0 _ _ hi]; simp
  · rw [product_eq hCw (lt1 ha), sgnZ hCw]
    congr 1
    have h1 : inv C.n a (b <<< A.n) = 0 := by
      rw [inv]
      apply Finset.sum_eq_zero
      intro j hj
      by_cases hja : j < A.n
      · have : pc j (b <<< A.n) = 0 := by
          rw [pc]; apply Finset.sum_eq_zero
          intro i hi; rw [Finset.mem_range] at hi; rw [hhigh0 _ _ (by omega)]; rfl
        simp [this]
      · rw [testBit_false_of_lt ha (by omega)]; simp
    have h2 : mprod (metric C ℤ) C.n a (b <<< A.n) = 1 := by
      rw [mprod]
      apply Finset.prod_eq_one
      intro j hj
      by_cases hja : j < A.n
      · rw [hhigh0 _ _ hja]; simp
      · rw [testBit_false_of_lt ha (by omega)]; simp
    rw [h1, h2]; simp
  · rw [product_eq hCw (lt2 hb), sgnZ hCw, Nat.xor_comm]
    congr 1
    have h1 : inv C.n (b <<< A.n) a = A.grade a * B.grade b := by
      rw [grade_eq hA ha, grade_eq hB hb, hn, inv, Finset.sum_range_add]
      rw [Finset.sum_eq_zero (s := Finset.range A.n), zero_add]
      · have : ∀ i ∈ Finset.range B.n, ((b <<< A.n).testBit (A.n + i)).toNat * pc (A.n + i) a
            = (b.testBit i).toNat * pc A.n a := by
          intro i _; rw [hhigh, pc_of_lt ha (by omega)]
        rw [Finset.sum_congr rfl this, ← Finset.sum_mul, mul_comm]; rfl
      · intro i hi; rw [Finset.mem_range] at hi; rw [hhigh0 _ _ hi]; simp
    have h2 : mprod (metric C ℤ) C.n (b <<< A.n) a = 1 := by
      rw [mprod]
      apply Finset.prod_eq_one
      intro j hj
      by_cases hja : j < A.n
      · rw [hhigh0 _ _ hja]; simp
      · rw [testBit_false_of_lt ha (by omega)]; simp
    rw [h1, h2]; simp

example : ∃ A B C, Alg.fromStr "x+y-".toList = some A ∧ Alg.fromStr "t-w0".toList = some B ∧ A.mul B = some C ∧
    C.desc.sig = A.desc.sig ++ B.desc.sig ∧ C.product 8 2 = (10, -1) := ⟨_, _, _, rfl, rfl, rfl, by decide, by decide⟩

/-- Names none of which is a prefix of another (and none empty). -/
def PrefixFree (names : List (List Char)) : Prop :=
  (∀ n ∈ names, n ≠ []) ∧ ∀ m ∈ names, ∀ n ∈ names, m <+: n → m = n

/-- C10: a concatenation of basis names parses to exactly the positions of those names. -/
theorem C10_parse_tokens (d : Description) (hp : PrefixFree d.names) (hd : d.names.Nodup) (toks : List Nat)
    (ht : ∀ i ∈ toks, i < d.names.length) :
    d.parseTokens (toks.flatMap fun i => d.names.getD i []) = some toks := by
  unfold Description.parseTokens
  have key : ∀ (w cur rest : List Char) (n : List Char), n ∈ d.names → n = cur.reverse ++ w → w ≠ [] →
      parseTokensLoop d.names cur (w ++ rest) = (parseTokensLoop d.names [] rest).map (d.names.idxOf n :: ·) := by
    intro w
    induction w with
    | nil => intro cur rest n _ _ h; exact absurd rfl h
    | cons c w ih =>
      intro cur rest n hn hw _
      rw [List.cons_append, parseTokensLoop]
      by_cases hwe : w = []
      · subst hwe
        have : (c :: cur).reverse = n := by simp [hw]
        simp only [this, hn, if_true]
        simp
      · have hnot : (c :: cur).reverse ∉ d.names := by
          intro hmem
          have := hp.2 _ hmem n hn ⟨w, by simp [hw]⟩
          rw [hw] at this
          simp at this
          exact hwe this
        simp only [hnot, if_false]
        exact ih (c :: cur) rest n hn (by simp [hw]) hwe
  induction toks with
  | nil => simp [parseTokensLoop]
  | cons i toks ih =>
    have hi : i < d.names.length := ht i (by simp)
    have hmem : d.names.getD i [] ∈ d.names := by
      rw [List.getD_eq_getElem?_getD, List.getElem?_eq_getElem hi]; exact List.getElem_mem _
    rw [List.flatMap_cons, key _ [] _ _ hmem (by simp) (hp.1 _ hmem), ih (fun j hj => ht j (by simp [hj]))]
    have : d.names.idxOf (d.names.getD i []) = i := by
      rw [List.getD_eq_getElem?_getD, List.getElem?_eq_getElem hi]
      exact hd.idxOf_getElem i hi
    rw [this]; rfl

/-- C10: whatever parses is a concatenation of basis names, so an unrecognised tail always raises. -/
theorem C10_parse_sound (d : Description) (s : List Char) (toks : List Nat) (h : d.parseTokens s = some toks) :
    (∀ i ∈ toks, i < d.names.length) ∧ s = toks.flatMap fun i => d.names.getD i [] := by
  unfold Description.parseTokens at h
  have key : ∀ (s cur : List Char) (toks : List Nat), parseTokensLoop d.names cur s = some toks →
      (∀ i ∈ toks, i < d.names.length) ∧ cur.reverse ++ s = toks.flatMap fun i => d.names.getD i [] := by
    intro s
    induction s with
    | nil =>
      intro cur toks h
      rw [parseTokensLoop] at h
      split at h
      · next hc => cases h; simp [hc]
      · cases h
    | cons c s ih =>
      intro cur toks h
      rw [parseTokensLoop] at h
      split at h
      · next hm =>
        rw [Option.map_eq_some_iff] at h
        obtain ⟨ts, hts, rfl⟩ := h
        obtain ⟨h1, h2⟩ := ih [] ts hts
        have hlt := List.idxOf_lt_length_of_mem hm
        refine ⟨?_, ?_⟩
        · intro i hi
          rw [List.mem_cons] at hi
          rcases hi with rfl | hi
          · exact hlt
          · exact h1 i hi
        · rw [List.flatMap_cons, ← h2, List.getD_eq_getElem?_getD, List.getElem?_eq_getElem hlt]
          simp
      · obtain ⟨h1, h2⟩ := ih _ _ h
        exact ⟨h1, by rw [← h2]; simp⟩
  simpa using key s [] toks h

example : (Description.mk ["e1".toList, "e2".toList, "x".toList] [1, 1, 0]).parseTokens "e2xe1".toList = some [1, 2, 0] := by
  decide
example : PrefixFree ["e1".toList, "e2".toList, "x".toList] := by
  refine ⟨by decide, ?_⟩
  decide

end Verif.Props
