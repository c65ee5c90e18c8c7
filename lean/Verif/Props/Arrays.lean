import Verif.Model.Arrays
import Verif.Proofs.Squeeze
/-! # Property C56: multivectors are never changed by operations on them -/
namespace Verif.Props
open Model Spec
variable {R : Type} [Zero R]
set_option linter.unusedSectionVars false

/-- Well-formed: arrays refer to existing cells, and multivectors have one column per blade. -/
structure WfWorld (w : World R) : Prop where
  arrays : ∀ a ∈ w.arrays, a.buf < w.bufs.length ∧ ∀ r ∈ a.rows, ∀ p ∈ r, p < (w.bufs.getD a.buf []).length
  objs : ∀ o ∈ w.objs, (o.arr.buf < w.bufs.length ∧ ∀ r ∈ o.arr.rows, ∀ p ∈ r, p < (w.bufs.getD o.arr.buf []).length) ∧
    ∀ r ∈ o.arr.rows, r.length = o.sub.blades.length

/-- The entry of a matrix at a row and column. -/
def cell (v : List (List R)) (r c : Nat) : Option R := (v[r]?).bind (·[c]?)

/-- Position of a cell of an array. -/
def apos (a : Arr) (r c : Nat) : Option Nat := (a.rows[r]?).bind (·[c]?)

theorem cell_read (w : World R) (a : Arr) (r c : Nat) : cell (w.read a) r c = (apos a r c).map fun p => (w.bufs.getD a.buf []).getD p 0 := by
  rw [cell, apos, World.read, List.getElem?_map]
  cases a.rows[r]? with
  | none => rfl
  | some row => simp

theorem layout_mem {k : Nat} {ls : List Nat} {r c p : Nat} (h : ((layout k ls)[r]?).bind (·[c]?) = some p) : k ≤ p ∧ p < k + ls.sum := by
  induction ls generalizing k r with
  | nil => simp [layout] at h
  | cons l ls ih =>
    cases r with
    | zero =>
      simp only [layout, List.getElem?_cons_zero, Option.bind_some] at h
      obtain ⟨h1, h2⟩ := List.getElem?_eq_some_iff.1 h
      simp at h1 h2
      simp; omega
    | succ r =>
      simp only [layout, List.getElem?_cons_succ] at h
      have := ih h
      simp; omega

theorem layout_inj {k : Nat} {ls : List Nat} {r c r' c' p : Nat} (h : ((layout k ls)[r]?).bind (·[c]?) = some p)
    (h' : ((layout k ls)[r']?).bind (·[c']?) = some p) : r = r' ∧ c = c' := by
  induction ls generalizing k r r' with
  | nil => simp [layout] at h
  | cons l ls ih =>
    have key : ∀ {r c q : Nat}, ((layout k (l :: ls))[r + 1]?).bind (·[c]?) = some q → k + l ≤ q := by
      intro r c q hq
      simp only [layout, List.getElem?_cons_succ] at hq
      exact (layout_mem hq).1
    have key0 : ∀ {c q : Nat}, ((layout k (l :: ls))[0]?).bind (·[c]?) = some q → q = k + c ∧ c < l := by
      intro c q hq
      simp only [layout, List.getElem?_cons_zero, Option.bind_some] at hq
      obtain ⟨h1, h2⟩ := List.getElem?_eq_some_iff.1 hq
      simp at h1 h2
      exact ⟨h2.symm, h1⟩
    cases r with
    | zero =>
      cases r' with
      | zero => have := key0 h; have := key0 h'; exact ⟨rfl, by omega⟩
      | succ r' => have := key0 h; have := key h'; omega
    | succ r =>
      cases r' with
      | zero => have := key0 h'; have := key h; omega
      | succ r' =>
        simp only [layout, List.getElem?_cons_succ] at h h'
        have := ih h h'
        exact ⟨by rw [this.1], this.2⟩

theorem layout_read (v : List (List R)) (pre : List R) :
    (layout pre.length (v.map (·.length))).map (fun r => r.map fun p => (pre ++ v.flatten).getD p 0) = v := by
  induction v generalizing pre with
  | nil => rfl
  | cons x v ih =>
    rw [List.map_cons, layout, List.map_cons]
    congr 1
    · apply List.ext_getElem (by simp)
      intro i h1 h2
      simp only [List.length_map, List.length_range'] at h1
      simp only [List.getElem_map, List.getElem_range', List.flatten_cons, one_mul]
      rw [List.getD_eq_getElem?_getD, List.getElem?_append_right (by omega), List.getElem?_append_left (by omega)]
      simp [h1]
    · have := ih (pre ++ x)
      rw [List.length_append] at this
      rw [List.flatten_cons, ← List.append_assoc]
      exact this

theorem alloc_read (w : World R) (v : List (List R)) : (w.alloc v).1.read (w.alloc v).2 = v := by
  have := layout_read v []
  simpa [World.alloc, World.read] using this

theorem alloc_old (w : World R) (v : List (List R)) {a : Arr} (ha : a.buf < w.bufs.length) :
    (w.alloc v).1.bufs.getD a.buf [] = w.bufs.getD a.buf [] := by
  rw [List.getD_eq_getElem?_getD, List.getD_eq_getElem?_getD, World.alloc, List.getElem?_append_left ha]

theorem alloc_pos (w : World R) (v : List (List R)) :
    (w.alloc v).2.buf = w.bufs.length ∧ (w.alloc v).1.bufs.length = w.bufs.length + 1 ∧
    (∀ r ∈ (w.alloc v).2.rows, ∀ p ∈ r, p < ((w.alloc v).1.bufs.getD (w.alloc v).2.buf []).length) ∧
    (w.alloc v).2.rows.map (·.length) = v.map (·.length) := by
  refine ⟨rfl, by simp [World.alloc], ?_, ?_⟩
  · intro r hr p hp
    obtain ⟨i, hi, rfl⟩ := List.getElem_of_mem hr
    obtain ⟨j, hj, rfl⟩ := List.getElem_of_mem hp
    have : ((w.alloc v).2.rows[i]?).bind (·[j]?) = some ((w.alloc v).2.rows[i][j]) := by
      rw [List.getElem?_eq_getElem hi, Option.bind_some, List.getElem?_eq_getElem hj]
    have := (layout_mem this).2
    simpa [World.alloc, List.length_flatten] using this
  · have : ∀ (k : Nat) (ls : List Nat), (layout k ls).map (·.length) = ls := by
      intro k ls
      induction ls generalizing k with
      | nil => rfl
      | cons l ls ih => simp [layout, ih]
    exact this _ _

theorem write_bufs (w : World R) (b p : Nat) (v : R) : (w.write b p v).bufs.length = w.bufs.length ∧ (w.write b p v).objs = w.objs ∧
    (w.write b p v).arrays = w.arrays ∧ (∀ c, c ≠ b → (w.write b p v).bufs.getD c [] = w.bufs.getD c []) ∧
    (b < w.bufs.length → (w.write b p v).bufs.getD b [] = (w.bufs.getD b []).set p v) := by
  refine ⟨by simp [World.write], rfl, rfl, fun c hc => ?_, fun hb => ?_⟩
  · rw [List.getD_eq_getElem?_getD, List.getD_eq_getElem?_getD, World.write, List.getElem?_set_ne (Ne.symm hc)]
  · rw [List.getD_eq_getElem?_getD, World.write, List.getElem?_set_self hb]
    rfl

theorem assign_frame {w w' : World R} {a : Arr} {l : List ((Nat × Nat) × R)} (h : w.assign a l = some w') :
    w'.bufs.length = w.bufs.length ∧ w'.objs = w.objs ∧ w'.arrays = w.arrays ∧ ∀ c, c ≠ a.buf → w'.bufs.getD c [] = w.bufs.getD c [] := by
  induction l generalizing w with
  | nil => cases h; exact ⟨rfl, rfl, rfl, fun _ _ => rfl⟩
  | cons x l ih =>
    obtain ⟨⟨r, c⟩, v⟩ := x
    rw [World.assign] at h
    split at h
    · cases h
    · split at h
      · cases h
      · rename_i p _
        obtain ⟨h1, h2, h3, h4⟩ := ih h
        obtain ⟨g1, g2, g3, g4, -⟩ := write_bufs w a.buf p v
        exact ⟨h1.trans g1, h2.trans g2, h3.trans g3, fun c hc => (h4 c hc).trans (g4 c hc)⟩

theorem assign_cells {w : World R} {a : Arr} (ha : a.buf < w.bufs.length) (hp : ∀ r ∈ a.rows, ∀ p ∈ r, p < (w.bufs.getD a.buf []).length)
    (hinj : ∀ r c r' c' p, apos a r c = some p → apos a r' c' = some p → r = r' ∧ c = c') (l : List ((Nat × Nat) × R)) :
    ((∃ x ∈ l, apos a x.1.1 x.1.2 = none) → w.assign a l = none) ∧
    ((∀ x ∈ l, apos a x.1.1 x.1.2 ≠ none) → ∃ w', w.assign a l = some w' ∧ ∀ r c, apos a r c ≠ none →
      cell (w'.read a) r c = some ((l.reverse.lookup (r, c)).getD ((cell (w.read a) r c).getD 0))) := by
  induction l generalizing w with
  | nil =>
    refine ⟨by simp, fun _ => ⟨w, rfl, fun r c hrc => ?_⟩⟩
    rw [cell_read]
    cases h : apos a r c with
    | none => exact absurd h hrc
    | some p => simp
  | cons x l ih =>
    obtain ⟨⟨r0, c0⟩, v⟩ := x
    have hstep : w.assign a (((r0, c0), v) :: l) = (apos a r0 c0).bind fun p => (w.write a.buf p v).assign a l := by
      rw [World.assign, apos]
      cases a.rows[r0]? with
      | none => rfl
      | some row =>
        cases h : row[c0]? with
        | none => simp [h]
        | some p => simp [h]
    rw [hstep]
    cases h0 : apos a r0 c0 with
    | none => exact ⟨fun _ => rfl, fun h => absurd h0 (h ((r0, c0), v) (by simp))⟩
    | some p =>
      rw [Option.bind_some]
      obtain ⟨g1, -, -, -, g5⟩ := write_bufs w a.buf p v
      have hb := g5 ha
      obtain ⟨ih1, ih2⟩ := ih (w := w.write a.buf p v) (by rw [g1]; exact ha) (by
        intro r hr q hq
        rw [hb, List.length_set]
        exact hp r hr q hq)
      constructor
      · rintro ⟨x, hx, hn⟩
        rcases List.mem_cons.1 hx with rfl | hx
        · rw [h0] at hn; cases hn
        · exact ih1 ⟨x, hx, hn⟩
      · intro hall
        obtain ⟨w', e, hc⟩ := ih2 fun x hx => hall x (by simp [hx])
        refine ⟨w', e, fun r c hrc => ?_⟩
        rw [hc r c hrc]
        congr 1
        rw [List.reverse_cons, List.lookup_append]
        cases hl : l.reverse.lookup (r, c) with
        | some y => rfl
        | none =>
          rw [cell_read, cell_read, hb]
          cases hq : apos a r c with
          | none => exact absurd hq hrc
          | some q =>
            simp only [Option.getD_none, Option.map_some, Option.getD_some, Option.none_or, List.lookup_cons, List.lookup_nil]
            by_cases heq : (r, c) = (r0, c0)
            · cases heq
              rw [h0] at hq
              obtain rfl : p = q := Option.some.inj hq
              have hlt : p < (w.bufs.getD a.buf []).length := by
                rw [apos] at h0
                cases hr : a.rows[r0]? with
                | none => rw [hr] at h0; cases h0
                | some row =>
                  rw [hr, Option.bind_some] at h0
                  exact hp row (List.mem_of_getElem? hr) p (List.mem_of_getElem? h0)
              simp [List.getD_eq_getElem?_getD, List.getElem?_set_self (by simpa [List.getD_eq_getElem?_getD] using hlt)]
            · have hne : p ≠ q := by
                rintro rfl
                have := hinj _ _ _ _ _ hq h0
                exact heq (by rw [this.1, this.2])
              rw [beq_eq_false_iff_ne.2 heq]
              simp [List.getD_eq_getElem?_getD, List.getElem?_set_ne hne]

/-- Nothing the user holds changes from `w` to `w'`. -/
def Unchanged (w w' : World R) : Prop :=
  w.arrays <+: w'.arrays ∧ w.objs <+: w'.objs ∧ (∀ a ∈ w.arrays, w'.read a = w.read a) ∧ ∀ o ∈ w.objs, w'.read o.arr = w.read o.arr

theorem unchanged_of {w w' : World R} (hw : WfWorld w) (ha : w.arrays <+: w'.arrays) (ho : w.objs <+: w'.objs)
    (hb : ∀ c < w.bufs.length, w'.bufs.getD c [] = w.bufs.getD c []) : Unchanged w w' :=
  ⟨ha, ho, fun a h => by rw [World.read, World.read, hb _ (hw.arrays a h).1], fun o h => by rw [World.read, World.read, hb _ (hw.objs o h).1.1]⟩

theorem construct_spec {w w' : World R} {a : Arr} {S : SubSpace} {cv : Bool} (hw : WfWorld w) (ha : a.buf < w.bufs.length)
    (hp : ∀ r ∈ a.rows, ∀ p ∈ r, p < (w.bufs.getD a.buf []).length) (h : w.construct a S cv = some w') :
    WfWorld w' ∧ w'.arrays = w.arrays ∧ w.objs <+: w'.objs ∧ ∀ c < w.bufs.length, w'.bufs.getD c [] = w.bufs.getD c [] := by
  rw [World.construct] at h
  cases cv with
  | false =>
    simp only [Bool.false_eq_true, if_false] at h
    split at h
    · rename_i hl
      cases h
      refine ⟨⟨hw.arrays, ?_⟩, rfl, List.prefix_append _ _, fun _ _ => rfl⟩
      intro o ho
      rcases List.mem_append.1 ho with ho | ho
      · exact hw.objs o ho
      · rw [List.mem_singleton] at ho
        subst ho
        exact ⟨⟨ha, hp⟩, hl⟩
    · cases h
  | true =>
    simp only [if_true] at h
    split at h
    · rename_i hl
      cases h
      obtain ⟨a1, a2, a3, -⟩ := alloc_pos w (w.read a)
      have hold : ∀ c < w.bufs.length, (w.alloc (w.read a)).1.bufs.getD c [] = w.bufs.getD c [] := fun c hc => alloc_old w _ (a := ⟨c, []⟩) hc
      refine ⟨⟨?_, ?_⟩, rfl, List.prefix_append _ _, hold⟩
      · intro b hb
        obtain ⟨b1, b2⟩ := hw.arrays b hb
        refine ⟨by simp only [a2]; omega, ?_⟩
        simp only [hold _ b1]
        exact b2
      · intro o ho
        rcases List.mem_append.1 ho with ho | ho
        · obtain ⟨⟨b1, b2⟩, b3⟩ := hw.objs o ho
          refine ⟨⟨by simp only [a2]; omega, ?_⟩, b3⟩
          simp only [hold _ b1]
          exact b2
        · rw [List.mem_singleton] at ho
          subst ho
          exact ⟨⟨by simp only [a2, a1]; omega, a3⟩, hl⟩
    · cases h

theorem alloc_wf {w : World R} (hw : WfWorld w) (v : List (List R)) : WfWorld (w.alloc v).1 := by
  obtain ⟨-, a2, -, -⟩ := alloc_pos w v
  constructor
  · intro b hb
    obtain ⟨b1, b2⟩ := hw.arrays b hb
    exact ⟨by rw [a2]; omega, by rw [alloc_old w v b1]; exact b2⟩
  · intro o ho
    obtain ⟨⟨b1, b2⟩, b3⟩ := hw.objs o ho
    exact ⟨⟨by rw [a2]; omega, by rw [alloc_old w v b1]; exact b2⟩, b3⟩

theorem assign_wf {w w' : World R} (hw : WfWorld w) {a : Arr} (ha : a.buf < w.bufs.length) {l : List ((Nat × Nat) × R)} (h : w.assign a l = some w') :
    WfWorld w' ∧ (w'.bufs.getD a.buf []).length = (w.bufs.getD a.buf []).length := by
  obtain ⟨h1, h2, h3, h4⟩ := assign_frame h
  have hlen : (w'.bufs.getD a.buf []).length = (w.bufs.getD a.buf []).length := by
    clear h1 h2 h3 h4 hw
    induction l generalizing w with
    | nil => cases h; rfl
    | cons x l ih =>
      obtain ⟨⟨r, c⟩, v⟩ := x
      rw [World.assign] at h
      split at h
      · cases h
      · split at h
        · cases h
        · rename_i p _
          obtain ⟨g1, -, -, -, g5⟩ := write_bufs w a.buf p v
          rw [ih (by rw [g1]; exact ha) h, g5 ha, List.length_set]
  have hl : ∀ c, (w'.bufs.getD c []).length = (w.bufs.getD c []).length := by
    intro c
    by_cases hc : c = a.buf
    · rw [hc, hlen]
    · rw [h4 c hc]
  exact ⟨⟨fun b hb => by rw [h3] at hb; rw [h1, hl]; exact hw.arrays b hb, fun o ho => by rw [h2] at ho; rw [h1, hl]; exact hw.objs o ho⟩, hlen⟩

theorem step_spec {w w' : World R} (hw : WfWorld w) (e : World.Event R) (h : w.step e = some w') :
    WfWorld w' ∧ ((∀ i l, e ≠ .write i l) → Unchanged w w') := by
  cases e with
  | array v =>
    cases h
    have hwf := alloc_wf hw v
    obtain ⟨a1, a2, a3, -⟩ := alloc_pos w v
    refine ⟨⟨?_, hwf.objs⟩, fun _ => unchanged_of hw (List.prefix_append _ _) (List.prefix_refl _) fun c hc => alloc_old w v (a := ⟨c, []⟩) hc⟩
    intro b hb
    rcases List.mem_append.1 hb with hb | hb
    · exact hwf.arrays b hb
    · rw [List.mem_singleton] at hb
      subst hb
      exact ⟨by rw [a1]; show w.bufs.length < (w.alloc v).1.bufs.length; rw [a2]; omega, a3⟩
  | construct i S cv =>
    simp only [World.step, Option.bind_eq_bind, Option.bind_eq_some_iff] at h
    obtain ⟨a, ha, h⟩ := h
    obtain ⟨a1, a2⟩ := hw.arrays a (List.mem_of_getElem? ha)
    obtain ⟨c1, c2, c3, c4⟩ := construct_spec hw a1 a2 h
    exact ⟨c1, fun _ => unchanged_of hw (by rw [c2]) c3 c4⟩
  | values x =>
    simp only [World.step, Option.bind_eq_bind, Option.bind_eq_some_iff] at h
    obtain ⟨o, ho, h⟩ := h
    cases h
    refine ⟨⟨?_, hw.objs⟩, fun _ => unchanged_of hw (List.prefix_append _ _) (List.prefix_refl _) fun _ _ => rfl⟩
    intro b hb
    rcases List.mem_append.1 hb with hb | hb
    · exact hw.arrays b hb
    · rw [List.mem_singleton] at hb
      subst hb
      exact (hw.objs o (List.mem_of_getElem? ho)).1
  | view x rows =>
    simp only [World.step, Option.bind_eq_bind, Option.bind_eq_some_iff] at h
    obtain ⟨o, ho, rs, hrs, h⟩ := h
    obtain ⟨⟨a1, a2⟩, -⟩ := hw.objs o (List.mem_of_getElem? ho)
    obtain ⟨c1, c2, c3, c4⟩ := construct_spec hw (a := ⟨o.arr.buf, rs⟩) a1 (by
      intro r hr p hp
      refine a2 r ?_ p hp
      clear h
      induction rows generalizing rs with
      | nil => cases hrs; cases hr
      | cons q rows ih =>
        rw [List.mapM_cons, Option.bind_eq_bind, Option.bind_eq_some_iff] at hrs
        obtain ⟨y, hy, hrs⟩ := hrs
        rw [Option.bind_eq_bind, Option.bind_eq_some_iff] at hrs
        obtain ⟨ys, hys, hrs⟩ := hrs
        cases hrs
        rcases List.mem_cons.1 hr with rfl | hr
        · exact List.mem_of_getElem? hy
        · exact ih ys hys hr) h
    exact ⟨c1, fun _ => unchanged_of hw (by rw [c2]) c3 c4⟩
  | set x l =>
    simp only [World.step, Option.bind_eq_bind, Option.bind_eq_some_iff] at h
    obtain ⟨o, ho, v, hv, h⟩ := h
    have hwf := alloc_wf hw (w.read o.arr)
    obtain ⟨a1, a2, a3, -⟩ := alloc_pos w (w.read o.arr)
    have hlt : (w.alloc (w.read o.arr)).2.buf < (w.alloc (w.read o.arr)).1.bufs.length := by rw [a1, a2]; omega
    obtain ⟨b1, b2⟩ := assign_wf hwf hlt hv
    obtain ⟨f1, f2, f3, f4⟩ := assign_frame hv
    obtain ⟨c1, c2, c3, c4⟩ := construct_spec b1 (by rw [f1]; exact hlt) (by rw [b2]; exact a3) h
    refine ⟨c1, fun _ => unchanged_of hw (by rw [c2, f3]; exact List.prefix_refl _) (by rw [f2] at c3; exact c3) fun c hc => ?_⟩
    rw [c4 c (by rw [f1, a2]; omega), f4 c (by rw [a1]; omega), alloc_old w _ (a := ⟨c, []⟩) hc]
  | call xs S f =>
    simp only [World.step, Option.bind_eq_bind, Option.bind_eq_some_iff] at h
    obtain ⟨os, hos, h⟩ := h
    have hwf := alloc_wf hw (f (os.map fun o => w.read o.arr))
    obtain ⟨a1, a2, a3, -⟩ := alloc_pos w (f (os.map fun o => w.read o.arr))
    obtain ⟨c1, c2, c3, c4⟩ := construct_spec hwf (by rw [a1, a2]; omega) a3 h
    refine ⟨c1, fun _ => unchanged_of hw (by rw [c2]; exact List.prefix_refl _) c3 fun c hc => ?_⟩
    rw [c4 c (by rw [a2]; omega), alloc_old w _ (a := ⟨c, []⟩) hc]
  | write i l =>
    simp only [World.step, Option.bind_eq_bind, Option.bind_eq_some_iff] at h
    obtain ⟨a, ha, h⟩ := h
    exact ⟨(assign_wf hw (hw.arrays a (List.mem_of_getElem? ha)).1 h).1, fun hne => absurd rfl (hne i l)⟩

/-- All histories lead to well-formed worlds. -/
theorem run_wf (h : List (World.Event R)) : WfWorld (World.run ⟨[], [], []⟩ h) := by
  induction h using List.reverseRecOn with
  | nil => exact ⟨fun a ha => by simp [World.run] at ha, fun a ha => by simp [World.run] at ha⟩
  | append_singleton h e ih =>
    rw [World.run, List.foldl_append, List.foldl_cons, List.foldl_nil]
    rw [World.run] at ih
    cases hs : World.step (h.foldl (fun w e => (w.step e).getD w) ⟨[], [], []⟩) e with
    | none => exact ih
    | some w' => exact (step_spec ih e hs).1

/-- C56: whatever happened before, as long as the user assigns to no array themselves, all multivectors (and arrays) keep their
values, whatever is done with them: constructing others from them, indexing, `at[..].set`, operators. -/
theorem C56_unchanged (h h' : List (World.Event R)) (hh : ∀ e ∈ h', ∀ i l, e ≠ .write i l) :
    Unchanged (World.run ⟨[], [], []⟩ h) (World.run ⟨[], [], []⟩ (h ++ h')) := by
  induction h' using List.reverseRecOn with
  | nil =>
    rw [List.append_nil]
    exact ⟨List.prefix_refl _, List.prefix_refl _, fun _ _ => rfl, fun _ _ => rfl⟩
  | append_singleton t e ih =>
    have ih := ih fun e he => hh e (by simp [he])
    have hwf := run_wf (R := R) (h ++ t)
    have hrun : World.run (⟨[], [], []⟩ : World R) (h ++ (t ++ [e])) = (World.step (World.run ⟨[], [], []⟩ (h ++ t)) e).getD (World.run ⟨[], [], []⟩ (h ++ t)) := by
      rw [← List.append_assoc, World.run, List.foldl_append]; rfl
    rw [hrun]
    change Unchanged _ ((World.step (World.run ⟨[], [], []⟩ (h ++ t)) e).getD (World.run ⟨[], [], []⟩ (h ++ t)))
    cases hs : World.step (World.run ⟨[], [], []⟩ (h ++ t)) e with
    | none => exact ih
    | some w' =>
      obtain ⟨u1, u2, u3, u4⟩ := (step_spec hwf e hs).2 (hh e (by simp))
      obtain ⟨i1, i2, i3, i4⟩ := ih
      exact ⟨i1.trans u1, i2.trans u2, fun a ha => (u3 a (i1.subset ha)).trans (i3 a ha), fun o ho => (u4 o (i2.subset ho)).trans (i4 o ho)⟩

/-- C56: `x.at[idx].set(values)` gives a new multivector over the same subspace with the entries at the index replaced (the last
value counts if an entry occurs more than once), and raises for entries that do not exist. -/
theorem C56_set {w : World R} (hw : WfWorld w) {x : Nat} {o : MVObj} (ho : w.objs[x]? = some o) (l : List ((Nat × Nat) × R)) :
    ((∃ e ∈ l, cell (w.read o.arr) e.1.1 e.1.2 = none) → w.step (.set x l) = none) ∧
    ((∀ e ∈ l, cell (w.read o.arr) e.1.1 e.1.2 ≠ none) → ∃ w' a, w.step (.set x l) = some w' ∧ w'.objs = w.objs ++ [⟨o.sub, a⟩] ∧
      Unchanged w w' ∧ ∀ r c, cell (w'.read a) r c = (cell (w.read o.arr) r c).map fun old => (l.reverse.lookup (r, c)).getD old) := by
  obtain ⟨a1, a2, a3, a4⟩ := alloc_pos w (w.read o.arr)
  have hlt : (w.alloc (w.read o.arr)).2.buf < (w.alloc (w.read o.arr)).1.bufs.length := by rw [a1, a2]; omega
  have hnone : ∀ r c, cell (w.read o.arr) r c = none ↔ apos (w.alloc (w.read o.arr)).2 r c = none := by
    intro r c
    conv_lhs => rw [← alloc_read w (w.read o.arr)]
    rw [cell_read, Option.map_eq_none_iff]
  obtain ⟨s1, s2⟩ := assign_cells (w := (w.alloc (w.read o.arr)).1) (a := (w.alloc (w.read o.arr)).2) hlt a3
    (fun r c r' c' p h h' => layout_inj h h') l
  have hstep : w.step (.set x l) = ((w.alloc (w.read o.arr)).1.assign (w.alloc (w.read o.arr)).2 l).bind fun v =>
      v.construct (w.alloc (w.read o.arr)).2 o.sub false := by
    simp only [World.step, ho, Option.bind_eq_bind, Option.bind_some]
  constructor
  · rintro ⟨e, he, hn⟩
    rw [hstep, s1 ⟨e, he, (hnone _ _).1 hn⟩]
    rfl
  · intro hall
    obtain ⟨v, v1, v2⟩ := s2 fun e he hn => hall e he ((hnone _ _).2 hn)
    obtain ⟨f1, f2, f3, f4⟩ := assign_frame v1
    have hrows : ∀ r ∈ (w.alloc (w.read o.arr)).2.rows, r.length = o.sub.blades.length := by
      intro r hr
      have h1 : r.length ∈ (w.alloc (w.read o.arr)).2.rows.map (·.length) := List.mem_map_of_mem hr
      rw [a4, World.read, List.map_map] at h1
      obtain ⟨r', hr', e⟩ := List.mem_map.1 h1
      rw [← e]
      simpa using (hw.objs o (List.mem_of_getElem? ho)).2 r' hr'
    have hres : w.step (.set x l) = some { v with objs := v.objs ++ [⟨o.sub, (w.alloc (w.read o.arr)).2⟩] } := by
      rw [hstep, v1, Option.bind_some, World.construct]
      simp only [Bool.false_eq_true, if_false]
      rw [if_pos hrows]
    refine ⟨_, (w.alloc (w.read o.arr)).2, hres, ?_, (step_spec hw _ hres).2 (by simp), fun r c => ?_⟩
    · simp only [f2]; rfl
    · change cell (v.read (w.alloc (w.read o.arr)).2) r c = _
      by_cases hrc : apos (w.alloc (w.read o.arr)).2 r c = none
      · rw [(hnone r c).2 hrc, cell_read, hrc]; rfl
      · rw [v2 r c hrc, alloc_read]
        cases hc : cell (w.read o.arr) r c with
        | none => exact absurd ((hnone r c).1 hc) hrc
        | some old => rfl

/-- C56: the proviso is needed: constructing a multivector does not copy an array of the right type, so a later assignment to
the array changes the multivector. -/
theorem C56_alias : ∃ h : List (World.Event ℤ), ∃ o ∈ (World.run ⟨[], [], []⟩ h).objs,
    (World.run ⟨[], [], []⟩ (h ++ [.write 0 [((0, 0), 5)]])).read o.arr ≠ (World.run ⟨[], [], []⟩ h).read o.arr :=
  ⟨[.array [[1, 2]], .construct 0 ⟨[1, 2]⟩ false], ⟨⟨[1, 2]⟩, ⟨0, [[0, 1]]⟩⟩, by simp [World.run, World.step, World.alloc, World.construct, layout]; rfl,
    by decide⟩

/-- An example history: a batch of two multivectors, a view of the second, and an update. -/
def exHist : List (World.Event ℤ) := [.array [[1, 2], [3, 4]], .construct 0 ⟨[1, 2]⟩ false, .view 0 [1], .set 0 [((0, 0), 5), ((1, 1), 7), ((0, 0), 6)]]

example : (World.run ⟨[], [], []⟩ exHist).objs.map (fun o => (World.run ⟨[], [], []⟩ exHist).read o.arr) = [[[1, 2], [3, 4]], [[3, 4]], [[6, 2], [3, 7]]] := by
  decide
example : Unchanged (World.run ⟨[], [], []⟩ (exHist.take 3)) (World.run ⟨[], [], []⟩ (exHist.take 3 ++ exHist.drop 3)) :=
  C56_unchanged _ _ (by simp [exHist])

end Verif.Props
