import Verif.Model.System
import Verif.Proofs.Physics2
import Mathlib.Tactic.Abel
/-! # Gathering and scattering entries of sets of bodies -/
namespace Verif
open Model

variable {R : Type}

theorem mapM_iff {α β : Type} {f : α → Except Fail β} {l : List α} {r : List β} : l.mapM f = .ok r ↔ List.Forall₂ (fun x y => f x = .ok y) l r := by
  refine ⟨mapM_ok, fun h => ?_⟩
  induction h with
  | nil => rfl
  | cons h _ ih => rw [List.mapM_cons, h, ih]; rfl

theorem mapM_exists {α β : Type} {f : α → Except Fail β} {l : List α} (h : ∀ x ∈ l, ∃ y, f x = .ok y) : ∃ r, l.mapM f = .ok r := by
  induction l with
  | nil => exact ⟨[], rfl⟩
  | cons x l ih =>
    obtain ⟨y, hy⟩ := h x (by simp)
    obtain ⟨r, hr⟩ := ih fun z hz => h z (by simp [hz])
    exact ⟨y :: r, by rw [List.mapM_cons, hy, hr]; rfl⟩

theorem forall₂_getElem {α β : Type} {p : α → β → Prop} {l : List α} {r : List β} :
    List.Forall₂ p l r ↔ l.length = r.length ∧ ∀ (k : Nat) x y, l[k]? = some x → r[k]? = some y → p x y := by
  constructor
  · intro h
    induction h with
    | nil => simp
    | cons h _ ih =>
      refine ⟨by simp [ih.1], fun k x y h1 h2 => ?_⟩
      cases k with
      | zero =>
        simp only [List.getElem?_cons_zero, Option.some.injEq] at h1 h2
        exact h1 ▸ h2 ▸ h
      | succ k => exact ih.2 k x y (by simpa using h1) (by simpa using h2)
  · rintro ⟨hl, h⟩
    induction l generalizing r with
    | nil => cases r with
      | nil => exact .nil
      | cons _ _ => simp at hl
    | cons x l ih => cases r with
      | nil => simp at hl
      | cons y r => exact .cons (h 0 x y rfl rfl) (ih (by simpa using hl) fun k x y h1 h2 => h (k + 1) x y (by simpa using h1) (by simpa using h2))

theorem pyIndex_lt {n : Nat} {i : Int} {k : Nat} (h : pyIndex n i = some k) : k < n := by
  unfold pyIndex at h
  split_ifs at h <;> cases h
  · assumption
  · omega

/-- Assignments to different rows. -/
theorem setRows_iff {rows rows' : List (List R)} {ws : List (Int × List R)} (hN : (ws.map fun w => pyIndex rows.length w.1).Nodup) :
    setRows rows ws = some rows' ↔ rows'.length = rows.length ∧
      (∀ w ∈ ws, ∃ k old, pyIndex rows.length w.1 = some k ∧ rows[k]? = some old ∧ w.2.length = old.length ∧ rows'[k]? = some w.2) ∧
      ∀ k, (∀ w ∈ ws, pyIndex rows.length w.1 ≠ some k) → rows'[k]? = rows[k]? := by
  induction ws generalizing rows with
  | nil =>
    simp only [setRows, List.foldlM_nil, List.not_mem_nil, false_imp_iff, implies_true, true_and, forall_const]
    constructor
    · intro h
      cases h
      exact ⟨rfl, fun _ => rfl⟩
    · rintro ⟨-, h⟩
      exact congrArg some (List.ext_getElem? fun k => (h k).symm)
  | cons w ws ih =>
    rw [List.map_cons, List.nodup_cons] at hN
    obtain ⟨hw, hN⟩ := hN
    simp only [List.mem_map, not_exists, not_and] at hw
    have step : setRows rows (w :: ws) = (do
        let k ← pyIndex rows.length w.1
        let old ← rows[k]?
        let r1 ← (if w.2.length = old.length then some (rows.set k w.2) else none)
        setRows r1 ws) := by
      simp only [setRows, List.foldlM_cons, bind_assoc]
    rw [step]
    constructor
    · intro h
      simp only [Option.bind_eq_bind, Option.bind_eq_some_iff] at h
      obtain ⟨k, hk, old, ho, r1, hr1, h⟩ := h
      split_ifs at hr1 with hl
      cases hr1
      rw [ih (by simpa using hN)] at h
      simp only [List.length_set] at h
      obtain ⟨h1, h2, h3⟩ := h
      have kl := pyIndex_lt hk
      refine ⟨h1, ?_, ?_⟩
      · intro v hv
        rcases List.mem_cons.1 hv with rfl | hv
        · refine ⟨k, old, hk, ho, hl, ?_⟩
          rw [h3 k fun x hx => by rw [← hk]; exact hw x hx]
          exact List.getElem?_set_self kl
        · obtain ⟨k', old', a1, a2, a3, a4⟩ := h2 v hv
          have hne : k ≠ k' := by
            rintro rfl
            exact hw v hv (by rw [a1, hk])
          rw [List.getElem?_set_ne hne] at a2
          exact ⟨k', old', a1, a2, a3, a4⟩
      · intro k' hk'
        have hne : k ≠ k' := by
          rintro rfl
          exact hk' w (by simp) hk
        rw [h3 k' fun x hx => hk' x (by simp [hx]), List.getElem?_set_ne hne]
    · rintro ⟨h1, h2, h3⟩
      obtain ⟨k, old, hk, ho, hl, hr⟩ := h2 w (by simp)
      have kl := pyIndex_lt hk
      simp only [hk, ho, hl, if_true, Option.bind_eq_bind, Option.bind_some]
      rw [ih (by simpa using hN)]
      simp only [List.length_set]
      refine ⟨h1, fun v hv => ?_, fun k' hk' => ?_⟩
      · obtain ⟨k', old', a1, a2, a3, a4⟩ := h2 v (by simp [hv])
        have hne : k ≠ k' := by
          rintro rfl
          exact hw v hv (by rw [a1, hk])
        exact ⟨k', old', a1, by rwa [List.getElem?_set_ne hne], a3, a4⟩
      · by_cases hne : k = k'
        · subst hne
          rw [hr, List.getElem?_set_self kl]
        · rw [List.getElem?_set_ne hne]
          refine h3 k' fun v hv => ?_
          rcases List.mem_cons.1 hv with rfl | hv
          · rw [hk]
            exact fun h => hne (Option.some.inj h)
          · exact hk' v hv

/-- What a set of links does to a list of bodies: each link changes its two bodies, computed from the old ones, the others stay. -/
structure Applied {β V : Type} (F : Link R → β → β → Except Fail (V × V)) (put : β → V → Except Fail β) (links : List (Link R)) (bs r : List β) : Prop where
  len : r.length = bs.length
  changed : ∀ l ∈ links, ∃ i j b0 b1 n0 n1 c0 c1, pyIndex bs.length l.idx0 = some i ∧ pyIndex bs.length l.idx1 = some j ∧ bs[i]? = some b0 ∧ bs[j]? = some b1 ∧
    F l b0 b1 = .ok (n0, n1) ∧ put b0 n0 = .ok c0 ∧ put b1 n1 = .ok c1 ∧ r[i]? = some c0 ∧ r[j]? = some c1
  rest : ∀ k, (∀ l ∈ links, pyIndex bs.length l.idx0 ≠ some k ∧ pyIndex bs.length l.idx1 ≠ some k) → r[k]? = bs[k]?

/-- The bodies of a set of links are different. -/
def Apart (n : Nat) (links : List (Link R)) : Prop := ((Link.bodyIdx links).map (pyIndex n)).Nodup

theorem Apart.tail {n : Nat} {l : Link R} {ls : List (Link R)} (h : Apart n (l :: ls)) : Apart n ls ∧ pyIndex n l.idx0 ≠ pyIndex n l.idx1 ∧
    ∀ x ∈ ls, pyIndex n x.idx0 ≠ pyIndex n l.idx0 ∧ pyIndex n x.idx1 ≠ pyIndex n l.idx0 ∧ pyIndex n x.idx0 ≠ pyIndex n l.idx1 ∧ pyIndex n x.idx1 ≠ pyIndex n l.idx1 := by
  simp only [Apart, Link.bodyIdx, List.map_append, List.map_map, List.map_cons, List.nodup_append, List.nodup_cons, List.mem_map, List.mem_cons, Function.comp_apply,
    not_exists, not_and] at h ⊢
  obtain ⟨⟨h1, h2⟩, ⟨h3, h4⟩, h5⟩ := h
  refine ⟨⟨h2, h4, fun a ha b hb => h5 a (.inr ha) b (.inr hb)⟩, h5 _ (.inl rfl) _ (.inl rfl), fun x hx => ⟨h1 x hx, ?_, ?_, h3 x hx⟩⟩
  · exact (h5 _ (.inl rfl) _ (.inr ⟨x, hx, rfl⟩)).symm
  · exact h5 _ (.inr ⟨x, hx, rfl⟩) _ (.inl rfl)

theorem Apart.perm {n : Nat} {l l' : List (Link R)} (h : l.Perm l') : Apart n l ↔ Apart n l' := by
  unfold Apart Link.bodyIdx
  exact (((h.map _).append (h.map _)).map _).nodup_iff

theorem Applied.perm {β V : Type} {F : Link R → β → β → Except Fail (V × V)} {put : β → V → Except Fail β} {l l' : List (Link R)} {bs r : List β} (h : l.Perm l') :
    Applied F put l bs r ↔ Applied F put l' bs r :=
  ⟨fun a => ⟨a.len, fun x hx => a.changed x (h.mem_iff.2 hx), fun k hk => a.rest k fun x hx => hk x (h.mem_iff.1 hx)⟩,
   fun a => ⟨a.len, fun x hx => a.changed x (h.mem_iff.1 hx), fun k hk => a.rest k fun x hx => hk x (h.mem_iff.2 hx)⟩⟩

/-- One link after the other. -/
theorem Applied.cons {β V : Type} {F : Link R → β → β → Except Fail (V × V)} {put : β → V → Except Fail β} {l : Link R} {ls : List (Link R)} {bs r : List β}
    (hN : Apart bs.length (l :: ls)) : Applied F put (l :: ls) bs r ↔ ∃ m, Applied F put [l] bs m ∧ Applied F put ls m r := by
  obtain ⟨-, hne, hx⟩ := hN.tail
  constructor
  · intro h
    obtain ⟨i, j, b0, b1, n0, n1, c0, c1, hi, hj, e0, e1, hF, p0, p1, r0, r1⟩ := h.changed l (by simp)
    have hij : i ≠ j := by
      rintro rfl
      exact hne (by rw [hi, hj])
    have li := pyIndex_lt hi
    have lj := pyIndex_lt hj
    refine ⟨(bs.set i c0).set j c1, ⟨by simp, ?_, ?_⟩, ⟨by simp [h.len], ?_, ?_⟩⟩
    · simp only [List.mem_singleton, forall_eq]
      refine ⟨i, j, b0, b1, n0, n1, c0, c1, hi, hj, e0, e1, hF, p0, p1, ?_, ?_⟩
      · rw [List.getElem?_set_ne hij.symm, List.getElem?_set_self li]
      · rw [List.getElem?_set_self (by simpa using lj)]
    · intro k hk
      obtain ⟨k0, k1⟩ := hk l (by simp)
      rw [List.getElem?_set_ne (fun e => k1 (by rw [hj, e])), List.getElem?_set_ne (fun e => k0 (by rw [hi, e]))]
    · intro x hx'
      obtain ⟨i', j', b0', b1', n0', n1', c0', c1', hi', hj', e0', e1', hF', p'⟩ := h.changed x (by simp [hx'])
      obtain ⟨y1, y2, y3, y4⟩ := hx x hx'
      refine ⟨i', j', b0', b1', n0', n1', c0', c1', by simpa using hi', by simpa using hj', ?_, ?_, hF', p'⟩
      · rw [List.getElem?_set_ne (fun e => y3 (by rw [hi', hj, e])), List.getElem?_set_ne (fun e => y1 (by rw [hi', hi, e])), e0']
      · rw [List.getElem?_set_ne (fun e => y4 (by rw [hj', hj, e])), List.getElem?_set_ne (fun e => y2 (by rw [hj', hi, e])), e1']
    · intro k hk
      simp only [List.length_set] at hk
      by_cases h1 : j = k
      · subst h1
        rw [r1, List.getElem?_set_self (by simpa using lj)]
      by_cases h0 : i = k
      · subst h0
        rw [r0, List.getElem?_set_ne h1, List.getElem?_set_self li]
      rw [List.getElem?_set_ne h1, List.getElem?_set_ne h0]
      refine h.rest k fun x hx' => ?_
      rcases List.mem_cons.1 hx' with rfl | hx'
      · rw [hi, hj]
        exact ⟨fun e => h0 (Option.some.inj e), fun e => h1 (Option.some.inj e)⟩
      · exact hk x hx'
  · rintro ⟨m, h, h'⟩
    obtain ⟨i, j, b0, b1, n0, n1, c0, c1, hi, hj, e0, e1, hF, p0, p1, r0, r1⟩ := h.changed l (by simp)
    have hl := h.len
    refine ⟨h'.len.trans hl, ?_, ?_⟩
    · intro x hx'
      rcases List.mem_cons.1 hx' with rfl | hx'
      · refine ⟨i, j, b0, b1, n0, n1, c0, c1, hi, hj, e0, e1, hF, p0, p1, ?_, ?_⟩
        · rw [h'.rest i fun y hy => by rw [hl, ← hi]; exact ⟨(hx y hy).1, (hx y hy).2.1⟩, r0]
        · rw [h'.rest j fun y hy => by rw [hl, ← hj]; exact ⟨(hx y hy).2.2.1, (hx y hy).2.2.2⟩, r1]
      · obtain ⟨i', j', b0', b1', n0', n1', c0', c1', hi', hj', e0', e1', hF', p'⟩ := h'.changed x hx'
        rw [hl] at hi' hj'
        obtain ⟨y1, y2, y3, y4⟩ := hx x hx'
        refine ⟨i', j', b0', b1', n0', n1', c0', c1', hi', hj', ?_, ?_, hF', p'⟩
        · rw [← e0', h.rest i' fun y hy => ?_]
          rw [List.mem_singleton.1 hy, ← hi']
          exact ⟨y1.symm, y3.symm⟩
        · rw [← e1', h.rest j' fun y hy => ?_]
          rw [List.mem_singleton.1 hy, ← hj']
          exact ⟨y2.symm, y4.symm⟩
    · intro k hk
      rw [h'.rest k fun x hx' => by rw [hl]; exact hk x (by simp [hx']), h.rest k fun x hx' => by rw [List.mem_singleton.1 hx']; exact hk l (by simp)]

theorem sum_set {β G : Type} [AddCommGroup G] (μ : β → G) {bs : List β} {i : Nat} {b : β} (h : bs[i]? = some b) (c : β) :
    ((bs.set i c).map μ).sum = (bs.map μ).sum - μ b + μ c := by
  induction bs generalizing i with
  | nil => simp at h
  | cons x bs ih =>
    cases i with
    | zero =>
      simp only [List.getElem?_cons_zero, Option.some.injEq] at h
      subst h
      simp only [List.set_cons_zero, List.map_cons, List.sum_cons]
      abel
    | succ i =>
      simp only [List.getElem?_cons_succ] at h
      simp only [List.set_cons_succ, List.map_cons, List.sum_cons, ih h]
      abel

/-- If every link keeps the sum of a quantity of its bodies, all together keep the sum over the bodies. -/
theorem Applied.sum {β V G : Type} [AddCommGroup G] (μ : β → G) {F : Link R → β → β → Except Fail (V × V)} {put : β → V → Except Fail β} {links : List (Link R)}
    {bs r : List β} (hN : Apart bs.length links) (h : Applied F put links bs r)
    (hp : ∀ l ∈ links, ∀ i j b0 b1 n0 n1 c0 c1, pyIndex bs.length l.idx0 = some i → pyIndex bs.length l.idx1 = some j → bs[i]? = some b0 → bs[j]? = some b1 →
      F l b0 b1 = .ok (n0, n1) → put b0 n0 = .ok c0 → put b1 n1 = .ok c1 → μ c0 + μ c1 = μ b0 + μ b1) :
    (r.map μ).sum = (bs.map μ).sum := by
  induction links generalizing bs with
  | nil =>
    have : r = bs := List.ext_getElem? fun k => h.rest k (by simp)
    rw [this]
  | cons l ls ih =>
    obtain ⟨hN', hne, hx⟩ := hN.tail
    obtain ⟨m, h1, h2⟩ := (Applied.cons hN).1 h
    obtain ⟨i, j, b0, b1, n0, n1, c0, c1, hi, hj, e0, e1, hF, p0, p1, r0, r1⟩ := h1.changed l (by simp)
    have hij : i ≠ j := by
      rintro rfl
      exact hne (by rw [hi, hj])
    have li := pyIndex_lt hi
    have lj := pyIndex_lt hj
    have hm : m = (bs.set i c0).set j c1 := by
      refine List.ext_getElem? fun k => ?_
      by_cases hk : j = k
      · subst hk
        rw [r1, List.getElem?_set_self (by simpa using lj)]
      by_cases hk' : i = k
      · subst hk'
        rw [r0, List.getElem?_set_ne hk, List.getElem?_set_self li]
      rw [List.getElem?_set_ne hk, List.getElem?_set_ne hk']
      refine h1.rest k fun x hx => ?_
      rw [List.mem_singleton.1 hx, hi, hj]
      exact ⟨fun e => hk' (Option.some.inj e), fun e => hk (Option.some.inj e)⟩
    rw [ih (bs := m) (by rw [h1.len]; exact hN') h2 ?_, hm, sum_set μ (b := b1) (by rw [List.getElem?_set_ne hij, e1]), sum_set μ e0,
      show μ c1 = μ b0 + μ b1 - μ c0 from by rw [← hp l (by simp) i j b0 b1 n0 n1 c0 c1 hi hj e0 e1 hF p0 p1]; abel]
    · abel
    · intro x hx' i' j' b0' b1' n0' n1' c0' c1' hi' hj' e0' e1'
      rw [h1.len] at hi' hj'
      obtain ⟨y1, y2, y3, y4⟩ := hx x hx'
      refine hp x (by simp [hx']) i' j' b0' b1' n0' n1' c0' c1' hi' hj' ?_ ?_
      · rw [← e0', h1.rest i' fun y hy => ?_]
        rw [List.mem_singleton.1 hy, ← hi']
        exact ⟨y1.symm, y3.symm⟩
      · rw [← e1', h1.rest j' fun y hy => ?_]
        rw [List.mem_singleton.1 hy, ← hj']
        exact ⟨y2.symm, y4.symm⟩

/-- Each entry of the result is an old entry or comes from one of them. -/
theorem Applied.mem {β V : Type} {F : Link R → β → β → Except Fail (V × V)} {put : β → V → Except Fail β} {links : List (Link R)}
    {bs r : List β} (h : Applied F put links bs r) {k : Nat} {c : β} (hk : r[k]? = some c) :
    ∃ b, bs[k]? = some b ∧ (c = b ∨ ∃ l ∈ links, ∃ i j b0 b1 n0 n1, pyIndex bs.length l.idx0 = some i ∧ pyIndex bs.length l.idx1 = some j ∧ bs[i]? = some b0 ∧
      bs[j]? = some b1 ∧ F l b0 b1 = .ok (n0, n1) ∧ (b0 = b ∧ put b n0 = .ok c ∨ b1 = b ∧ put b n1 = .ok c)) := by
  by_cases hl : ∀ l ∈ links, pyIndex bs.length l.idx0 ≠ some k ∧ pyIndex bs.length l.idx1 ≠ some k
  · rw [h.rest k hl] at hk
    exact ⟨c, hk, .inl rfl⟩
  · push Not at hl
    obtain ⟨l, hl, hk'⟩ := hl
    obtain ⟨i, j, b0, b1, n0, n1, c0, c1, hi, hj, e0, e1, hF, p0, p1, r0, r1⟩ := h.changed l hl
    by_cases hik : i = k
    · subst hik
      cases r0.symm.trans hk
      exact ⟨b0, e0, .inr ⟨l, hl, i, j, b0, b1, n0, n1, hi, hj, e0, e1, hF, .inl ⟨rfl, p0⟩⟩⟩
    · cases hj.symm.trans (hk' (by rw [hi]; exact fun e => hik (Option.some.inj e)))
      cases r1.symm.trans hk
      exact ⟨b1, e1, .inr ⟨l, hl, i, k, b0, b1, n0, n1, hi, hj, e0, e1, hF, .inr ⟨rfl, p1⟩⟩⟩

/-- All at once, or one after the other in any order. -/
theorem Applied.fold {β V : Type} {F : Link R → β → β → Except Fail (V × V)} {put : β → V → Except Fail β} {step : List β → Link R → Except Fail (List β)}
    (P : β → Prop) (hP : ∀ b v c, P b → put b v = .ok c → P c) (hs : ∀ bs r l, (∀ b ∈ bs, P b) → Apart bs.length [l] → (step bs l = .ok r ↔ Applied F put [l] bs r))
    {links : List (Link R)} {bs r : List β} (hb : ∀ b ∈ bs, P b) (hN : Apart bs.length links) :
    Applied F put links bs r ↔ links.foldlM step bs = .ok r := by
  induction links generalizing bs with
  | nil =>
    rw [List.foldlM_nil]
    constructor
    · intro h
      have : r = bs := List.ext_getElem? fun k => h.rest k (by simp)
      rw [this]
      rfl
    · intro h
      cases h
      exact ⟨rfl, by simp, fun _ _ => rfl⟩
  | cons l ls ih =>
    obtain ⟨hN', hne, -⟩ := hN.tail
    have h1 : Apart bs.length [l] := by
      simp only [Apart, Link.bodyIdx, List.map_cons, List.map_nil, List.singleton_append, List.nodup_cons, List.mem_singleton, List.not_mem_nil, not_false_eq_true,
        List.nodup_nil, and_true]
      exact hne
    rw [Applied.cons hN, List.foldlM_cons]
    have keep : ∀ m, Applied F put [l] bs m → ∀ b ∈ m, P b := by
      intro m hm b hbm
      obtain ⟨k, hk⟩ := List.mem_iff_getElem?.1 hbm
      obtain ⟨b', e, rfl | ⟨_, _, _, _, _, _, _, _, _, _, _, _, _, ⟨-, p⟩ | ⟨-, p⟩⟩⟩ := hm.mem hk
      · exact hb _ (List.mem_of_getElem? e)
      · exact hP _ _ _ (hb _ (List.mem_of_getElem? e)) p
      · exact hP _ _ _ (hb _ (List.mem_of_getElem? e)) p
    constructor
    · rintro ⟨m, hm, hr⟩
      rw [(hs _ _ _ hb h1).2 hm]
      exact (ih (keep m hm) (by rw [hm.len]; exact hN')).1 hr
    · intro h
      obtain ⟨m, hm, h⟩ := bind_ok h
      rw [hs _ _ _ hb h1] at hm
      exact ⟨m, hm, (ih (keep m hm) (by rw [hm.len]; exact hN')).2 h⟩

/-- The shape of `apply` and `v_apply`. -/
def scatter {β V : Type} (F : Link R → β → β → Except Fail (V × V)) (get : β → List R) (vals : V → List R) (put : β → List R → Except Fail β) (links : List (Link R))
    (bs : List β) : Except Fail (List β) := do
  let res ← links.mapM fun l => do F l (← lift (pyGet bs l.idx0)) (← lift (pyGet bs l.idx1))
  let rows ← lift (setRows (bs.map get) (List.zip (Link.bodyIdx links) (res.map (fun x => vals x.1) ++ res.map fun x => vals x.2)))
  (List.zip bs rows).mapM fun x => put x.1 x.2

theorem pyGet_ok {α : Type} {l : List α} {i : Int} {x : α} : lift (pyGet l i) = .ok x ↔ ∃ k, pyIndex l.length i = some k ∧ l[k]? = some x := by
  unfold pyGet
  cases h : pyIndex l.length i with
  | none => simp [lift]
  | some k =>
    cases h' : l[k]? with
    | none => simp [lift, h']
    | some y => simp [lift, h']

theorem scatter_iff {β V : Type} {F : Link R → β → β → Except Fail (V × V)} {get : β → List R} {vals : V → List R} {put : β → List R → Except Fail β}
    {links : List (Link R)} {bs r : List β} (hN : Apart bs.length links) (h1 : ∀ b ∈ bs, put b (get b) = .ok b)
    (h2 : ∀ b ∈ bs, ∀ v c, put b v = .ok c → get c = v ∧ v.length = (get b).length) :
    scatter F get vals put links bs = .ok r ↔ Applied F (fun b v => put b (vals v)) links bs r := by
  have zipw : ∀ {res : List (V × V)}, links.length = res.length →
      List.zip (Link.bodyIdx links) (res.map (fun x => vals x.1) ++ res.map fun x => vals x.2) =
        (links.zip res).map (fun x => (x.1.idx0, vals x.2.1)) ++ (links.zip res).map (fun x => (x.1.idx1, vals x.2.2)) := by
    intro res hl
    rw [Link.bodyIdx, List.zip_append (by simp [hl])]
    congr 1 <;> rw [List.zip_map] <;> rfl
  have nod : ∀ {res : List (V × V)}, links.length = res.length →
      (((links.zip res).map (fun x => (x.1.idx0, vals x.2.1)) ++ (links.zip res).map (fun x => (x.1.idx1, vals x.2.2))).map fun w => pyIndex (bs.map get).length w.1).Nodup := by
    intro res hl
    rw [← zipw hl]
    have : (List.zip (Link.bodyIdx links) (res.map (fun x => vals x.1) ++ res.map fun x => vals x.2)).map (fun w => pyIndex (bs.map get).length w.1) =
        (Link.bodyIdx links).map (pyIndex bs.length) := by
      rw [show (fun w : Int × List R => pyIndex (bs.map get).length w.1) = pyIndex bs.length ∘ Prod.fst by funext w; simp, ← List.map_map, List.map_fst_zip]
      simp [Link.bodyIdx, hl]
    rw [this]
    exact hN
  constructor
  · intro h
    obtain ⟨res, g1, h⟩ := bind_ok h
    obtain ⟨rows, g2, h⟩ := bind_ok h
    obtain ⟨l1, g1⟩ := forall₂_getElem.1 (mapM_iff.1 g1)
    have g2 := lift_ok g2
    rw [zipw l1, setRows_iff (nod l1)] at g2
    obtain ⟨a1, a2, a3⟩ := g2
    simp only [List.length_map] at a1 a2 a3
    obtain ⟨l2, g3⟩ := forall₂_getElem.1 (mapM_iff.1 h)
    have lr : r.length = bs.length := by rw [← l2, List.length_zip, a1, min_self]
    have g3' : ∀ (k : Nat) b row c, bs[k]? = some b → rows[k]? = some row → r[k]? = some c → put b row = .ok c := by
      intro k b row c e1 e2 e3
      exact g3 k (b, row) c (by rw [List.getElem?_zip_eq_some]; exact ⟨e1, e2⟩) e3
    have rk : ∀ (k : Nat) b, bs[k]? = some b → ∃ c, r[k]? = some c := by
      intro k b e
      obtain ⟨hk, -⟩ := List.getElem?_eq_some_iff.1 e
      exact ⟨r[k]'(lr ▸ hk), List.getElem?_eq_getElem _⟩
    refine ⟨lr, fun l hl => ?_, fun k hk => ?_⟩
    · obtain ⟨t, ht, rfl⟩ := List.mem_iff_getElem.1 hl
      have ht' : t < res.length := l1 ▸ ht
      have e := g1 t _ _ (List.getElem?_eq_getElem ht) (List.getElem?_eq_getElem ht')
      obtain ⟨b0, q0, e⟩ := bind_ok e
      obtain ⟨b1, q1, e⟩ := bind_ok e
      obtain ⟨i, hi, e0⟩ := pyGet_ok.1 q0
      obtain ⟨j, hj, e1⟩ := pyGet_ok.1 q1
      have hz : (links[t], res[t]) ∈ links.zip res := List.mem_iff_getElem.2 ⟨t, by simp [l1, ht'], by simp⟩
      obtain ⟨i', o, x1, x2, x3, x4⟩ := a2 (links[t].idx0, vals res[t].1) (List.mem_append_left _ (List.mem_map.2 ⟨_, hz, rfl⟩))
      obtain ⟨j', o', y1, y2, y3, y4⟩ := a2 (links[t].idx1, vals res[t].2) (List.mem_append_right _ (List.mem_map.2 ⟨_, hz, rfl⟩))
      cases x1.symm.trans hi
      cases y1.symm.trans hj
      obtain ⟨c0, hc0⟩ := rk _ _ e0
      obtain ⟨c1, hc1⟩ := rk _ _ e1
      exact ⟨i, j, b0, b1, res[t].1, res[t].2, c0, c1, hi, hj, e0, e1, e, g3' _ _ _ _ e0 x4 hc0, g3' _ _ _ _ e1 y4 hc1, hc0, hc1⟩
    · cases e : bs[k]? with
      | none =>
        rw [List.getElem?_eq_none_iff] at e ⊢
        omega
      | some b =>
        obtain ⟨c, hc⟩ := rk k b e
        have hrow := a3 k fun w hw => by
          rcases List.mem_append.1 hw with hw | hw
          all_goals
            obtain ⟨x, hx, rfl⟩ := List.mem_map.1 hw
            have := hk x.1 (List.of_mem_zip hx).1
          · exact this.1
          · exact this.2
        rw [List.getElem?_map, e] at hrow
        have := g3' k b _ c e hrow hc
        rw [h1 b (List.mem_of_getElem? e)] at this
        cases this
        exact hc
  · intro h
    obtain ⟨res, hres⟩ := mapM_exists (f := fun l => do F l (← lift (pyGet bs l.idx0)) (← lift (pyGet bs l.idx1))) (l := links) fun l hl => by
      obtain ⟨i, j, b0, b1, n0, n1, c0, c1, hi, hj, e0, e1, hF, -⟩ := h.changed l hl
      exact ⟨(n0, n1), by rw [pyGet_ok.2 ⟨i, hi, e0⟩, pyGet_ok.2 ⟨j, hj, e1⟩]; exact hF⟩
    obtain ⟨l1, g1⟩ := forall₂_getElem.1 (mapM_iff.1 hres)
    have key : ∀ x ∈ links.zip res, ∃ i j b0 b1 c0 c1, pyIndex bs.length x.1.idx0 = some i ∧ pyIndex bs.length x.1.idx1 = some j ∧ bs[i]? = some b0 ∧ bs[j]? = some b1 ∧
        put b0 (vals x.2.1) = .ok c0 ∧ put b1 (vals x.2.2) = .ok c1 ∧ r[i]? = some c0 ∧ r[j]? = some c1 := by
      intro x hx
      obtain ⟨t, ht, rfl⟩ := List.mem_iff_getElem.1 hx
      simp only [List.length_zip, l1, min_self] at ht
      simp only [List.getElem_zip]
      have e := g1 t _ _ (List.getElem?_eq_getElem (l1 ▸ ht)) (List.getElem?_eq_getElem ht)
      obtain ⟨i, j, b0, b1, n0, n1, c0, c1, hi, hj, e0, e1, hF, p⟩ := h.changed links[t] (List.getElem_mem _)
      rw [pyGet_ok.2 ⟨i, hi, e0⟩, pyGet_ok.2 ⟨j, hj, e1⟩] at e
      have e : F links[t] b0 b1 = .ok res[t] := e
      rw [hF] at e
      cases e' : res[t] with | mk u v =>
      rw [e'] at e
      cases e
      exact ⟨i, j, b0, b1, c0, c1, hi, hj, e0, e1, p⟩
    have hset : setRows (bs.map get) (List.zip (Link.bodyIdx links) (res.map (fun x => vals x.1) ++ res.map fun x => vals x.2)) = some (r.map get) := by
      rw [zipw l1, setRows_iff (nod l1)]
      simp only [List.length_map]
      refine ⟨h.len, fun w hw => ?_, fun k hk => ?_⟩
      · rcases List.mem_append.1 hw with hw | hw
        all_goals
          obtain ⟨x, hx, rfl⟩ := List.mem_map.1 hw
          obtain ⟨i, j, b0, b1, c0, c1, hi, hj, e0, e1, p0, p1, r0, r1⟩ := key x hx
        · obtain ⟨v1, v2⟩ := h2 b0 (List.mem_of_getElem? e0) _ _ p0
          exact ⟨i, get b0, hi, by rw [List.getElem?_map, e0]; rfl, v2, by rw [List.getElem?_map, r0, Option.map_some, v1]⟩
        · obtain ⟨v1, v2⟩ := h2 b1 (List.mem_of_getElem? e1) _ _ p1
          exact ⟨j, get b1, hj, by rw [List.getElem?_map, e1]; rfl, v2, by rw [List.getElem?_map, r1, Option.map_some, v1]⟩
      · rw [List.getElem?_map, List.getElem?_map, h.rest k]
        intro l hl
        obtain ⟨t, ht, rfl⟩ := List.mem_iff_getElem.1 hl
        have hz : (links[t], res[t]'(l1 ▸ ht)) ∈ links.zip res := List.mem_iff_getElem.2 ⟨t, by simp [← l1, ht], by simp⟩
        exact ⟨hk _ (List.mem_append_left _ (List.mem_map.2 ⟨_, hz, rfl⟩)), hk _ (List.mem_append_right _ (List.mem_map.2 ⟨_, hz, rfl⟩))⟩
    rw [scatter, hres]
    have : (List.zip bs (r.map get)).mapM (fun x => put x.1 x.2) = .ok r := by
      rw [mapM_iff, forall₂_getElem]
      refine ⟨by simp [h.len], fun k x y hx hy => ?_⟩
      obtain ⟨b, row⟩ := x
      rw [List.getElem?_zip_eq_some, List.getElem?_map, hy] at hx
      obtain ⟨e1, e2⟩ := hx
      cases e2
      show put b (get y) = .ok y
      by_cases hk : ∀ l ∈ links, pyIndex bs.length l.idx0 ≠ some k ∧ pyIndex bs.length l.idx1 ≠ some k
      · have := h.rest k hk
        rw [e1, hy] at this
        have hb : y = b := Option.some.inj this
        rw [hb]
        exact h1 _ (List.mem_of_getElem? e1)
      · push Not at hk
        obtain ⟨l, hl, hk⟩ := hk
        obtain ⟨i, j, b0, b1, n0, n1, c0, c1, hi, hj, e0, e1', -, p0, p1, r0, r1⟩ := h.changed l hl
        by_cases hik : i = k
        · subst hik
          rw [e1] at e0
          rw [hy] at r0
          cases e0
          cases r0
          rw [(h2 b (List.mem_of_getElem? e1) _ _ p0).1]
          exact p0
        · have := hk (by rw [hi]; exact fun e => hik (Option.some.inj e))
          cases hj.symm.trans this
          rw [e1] at e1'
          rw [hy] at r1
          cases e1'
          cases r1
          rw [(h2 b (List.mem_of_getElem? e1) _ _ p1).1]
          exact p1
    simp only [bind, Except.bind, hset, lift_some, this]

theorem setRows_length {rows rows' : List (List R)} {ws : List (Int × List R)} (h : setRows rows ws = some rows') : rows'.length = rows.length := by
  induction ws generalizing rows with
  | nil => cases h; rfl
  | cons w ws ih =>
    have step : setRows rows (w :: ws) = (do
        let k ← pyIndex rows.length w.1
        let old ← rows[k]?
        let r1 ← (if w.2.length = old.length then some (rows.set k w.2) else none)
        setRows r1 ws) := by
      simp only [setRows, List.foldlM_cons, bind_assoc]
    rw [step] at h
    simp only [Option.bind_eq_bind, Option.bind_eq_some_iff] at h
    obtain ⟨k', hk, old, ho, r1, hr1, h⟩ := h
    split_ifs at hr1 with hl
    cases hr1
    rw [ih h, List.length_set]

/-- Of several assignments to one row the last one stays. -/
theorem setRows_last {rows rows' : List (List R)} {ws : List (Int × List R)} (h : setRows rows ws = some rows') (k : Nat) :
    rows'[k]? = match ws.reverse.find? (fun w => pyIndex rows.length w.1 == some k) with
      | some w => some w.2
      | none => rows[k]? := by
  induction ws generalizing rows with
  | nil => cases h; rfl
  | cons w ws ih =>
    have step : setRows rows (w :: ws) = (do
        let k ← pyIndex rows.length w.1
        let old ← rows[k]?
        let r1 ← (if w.2.length = old.length then some (rows.set k w.2) else none)
        setRows r1 ws) := by
      simp only [setRows, List.foldlM_cons, bind_assoc]
    rw [step] at h
    simp only [Option.bind_eq_bind, Option.bind_eq_some_iff] at h
    obtain ⟨k', hk, old, ho, r1, hr1, h⟩ := h
    split_ifs at hr1 with hl
    cases hr1
    have kl := pyIndex_lt hk
    have := ih h
    rw [List.length_set] at this
    rw [this, List.reverse_cons, List.find?_append]
    cases ws.reverse.find? (fun w => pyIndex rows.length w.1 == some k) with
    | some x => rfl
    | none =>
      simp only [Option.none_or, List.find?_cons, List.find?_nil, hk]
      by_cases e : k' = k
      · subst e
        simp [kl]
      · rw [List.getElem?_set_ne e]
        have e' : (k' == k) = false := by simpa using e
        simp [e']

/-- Whatever the bodies of the links are, an entry of the result is an old entry or comes from one of the links. -/
theorem scatter_any {β V : Type} {F : Link R → β → β → Except Fail (V × V)} {get : β → List R} {vals : V → List R} {put : β → List R → Except Fail β}
    {links : List (Link R)} {bs r : List β} (h : scatter F get vals put links bs = .ok r) :
    r.length = bs.length ∧ ∀ (k : Nat) b c, bs[k]? = some b → r[k]? = some c → put b (get b) = .ok c ∨
      ∃ l ∈ links, ∃ b0 b1 n0 n1, b0 ∈ bs ∧ b1 ∈ bs ∧ F l b0 b1 = .ok (n0, n1) ∧ (b0 = b ∧ put b (vals n0) = .ok c ∨ b1 = b ∧ put b (vals n1) = .ok c) := by
  obtain ⟨res, g1, h⟩ := bind_ok h
  obtain ⟨rows, g2, h'⟩ := bind_ok h
  obtain ⟨l1, g1'⟩ := forall₂_getElem.1 (mapM_iff.1 g1)
  have g2 := lift_ok g2
  have hlen := setRows_length g2
  have hlast := setRows_last g2
  simp only [List.length_map] at hlen hlast
  obtain ⟨l2, g3⟩ := forall₂_getElem.1 (mapM_iff.1 h')
  have lr : r.length = bs.length := by rw [← l2, List.length_zip, hlen, min_self]
  refine ⟨lr, fun k b c e1 e2 => ?_⟩
  have hk := (List.getElem?_eq_some_iff.1 e1).1
  have hrow : rows[k]? = some (rows[k]'(hlen ▸ hk)) := List.getElem?_eq_getElem _
  have hput := g3 k (b, rows[k]'(hlen ▸ hk)) c (by rw [List.getElem?_zip_eq_some]; exact ⟨e1, hrow⟩) e2
  have hl := hlast k
  rw [hrow] at hl
  cases hf : (List.zip (Link.bodyIdx links) (res.map (fun x => vals x.1) ++ res.map fun x => vals x.2)).reverse.find? (fun w => pyIndex bs.length w.1 == some k) with
  | none =>
    rw [hf] at hl
    simp only [List.getElem?_map, e1, Option.map_some, Option.some.injEq] at hl
    rw [hl] at hput
    exact .inl hput
  | some w =>
    rw [hf] at hl
    simp only [Option.some.injEq] at hl
    rw [hl] at hput
    have hw := List.mem_reverse.1 (List.mem_of_find?_eq_some hf)
    have hi := List.find?_some hf
    simp only [beq_iff_eq] at hi
    rw [Link.bodyIdx, List.zip_append (by simp [l1])] at hw
    have key : ∀ t, (ht : t < links.length) → ∃ i j b0 b1, pyIndex bs.length links[t].idx0 = some i ∧ pyIndex bs.length links[t].idx1 = some j ∧ bs[i]? = some b0 ∧
        bs[j]? = some b1 ∧ F links[t] b0 b1 = .ok (res[t]'(l1 ▸ ht)) := by
      intro t ht
      have e := g1' t _ _ (List.getElem?_eq_getElem ht) (List.getElem?_eq_getElem (l1 ▸ ht))
      obtain ⟨b0, q0, e⟩ := bind_ok e
      obtain ⟨b1, q1, e⟩ := bind_ok e
      obtain ⟨i, hi, e0⟩ := pyGet_ok.1 q0
      obtain ⟨j, hj, e1⟩ := pyGet_ok.1 q1
      exact ⟨i, j, b0, b1, hi, hj, e0, e1, e⟩
    rcases List.mem_append.1 hw with hw | hw
    all_goals
      obtain ⟨t, ht, rfl⟩ := List.mem_iff_getElem.1 hw
      simp only [List.length_zip, List.length_map, l1, min_self] at ht
      obtain ⟨i, j, b0, b1, y1, y2, y3, y4, y5⟩ := key t (l1 ▸ ht)
      simp only [List.getElem_zip, List.getElem_map] at hi hput
      refine .inr ⟨links[t]'(l1 ▸ ht), List.getElem_mem _, b0, b1, res[t].1, res[t].2, List.mem_of_getElem? y3, List.mem_of_getElem? y4, y5, ?_⟩
    · cases hi.symm.trans y1
      cases e1.symm.trans y3
      exact .inl ⟨rfl, hput⟩
    · cases hi.symm.trans y2
      cases e1.symm.trans y4
      exact .inr ⟨rfl, hput⟩

theorem setRows_exists {rows : List (List R)} {ws : List (Int × List R)}
    (h : ∀ w ∈ ws, ∃ k, pyIndex rows.length w.1 = some k ∧ (rows.map List.length)[k]? = some w.2.length) :
    ∃ rows', setRows rows ws = some rows' ∧ rows'.map List.length = rows.map List.length := by
  induction ws generalizing rows with
  | nil => exact ⟨rows, rfl, rfl⟩
  | cons w ws ih =>
    have step : setRows rows (w :: ws) = (do
        let k ← pyIndex rows.length w.1
        let old ← rows[k]?
        let r1 ← (if w.2.length = old.length then some (rows.set k w.2) else none)
        setRows r1 ws) := by
      simp only [setRows, List.foldlM_cons, bind_assoc]
    obtain ⟨k, hk, hl⟩ := h w (by simp)
    rw [List.getElem?_map] at hl
    obtain ⟨old, ho, hl⟩ := Option.map_eq_some_iff.1 hl
    have kl := pyIndex_lt hk
    have e : (rows.set k w.2).map List.length = rows.map List.length := by
      rw [List.map_set]
      refine List.ext_getElem? fun t => ?_
      by_cases ht : k = t
      · subst ht
        rw [List.getElem?_set_self (by simpa using kl), List.getElem?_map, ho, Option.map_some, hl]
      · rw [List.getElem?_set_ne ht]
    obtain ⟨rows', h1, h2⟩ := ih (rows := rows.set k w.2) fun v hv => by
      obtain ⟨k', a, b⟩ := h v (by simp [hv])
      exact ⟨k', by rw [List.length_set]; exact a, by rw [e]; exact b⟩
    refine ⟨rows', ?_, h2.trans e⟩
    rw [step, hk, Option.bind_eq_bind, Option.bind_some, ho, Option.bind_eq_bind, Option.bind_some, if_pos hl.symm]
    exact h1

/-- There is a result if and only if every link has one. -/
theorem scatter_total {β V : Type} {F : Link R → β → β → Except Fail (V × V)} {get : β → List R} {vals : V → List R} {put : β → List R → Except Fail β}
    {links : List (Link R)} {bs : List β} (hput : ∀ b ∈ bs, ∀ v, v.length = (get b).length → ∃ c, put b v = .ok c)
    (hF : ∀ l ∈ links, ∀ b0 ∈ bs, ∀ b1 ∈ bs, ∀ n0 n1, F l b0 b1 = .ok (n0, n1) → (vals n0).length = (get b0).length ∧ (vals n1).length = (get b1).length) :
    (∃ r, scatter F get vals put links bs = .ok r) ↔ ∀ l ∈ links, ∃ b0 b1 n, pyGet bs l.idx0 = some b0 ∧ pyGet bs l.idx1 = some b1 ∧ F l b0 b1 = .ok n := by
  constructor
  · rintro ⟨r, h⟩ l hl
    obtain ⟨res, g1, -⟩ := bind_ok h
    obtain ⟨l1, g1⟩ := forall₂_getElem.1 (mapM_iff.1 g1)
    obtain ⟨t, ht, rfl⟩ := List.mem_iff_getElem.1 hl
    have e := g1 t _ _ (List.getElem?_eq_getElem ht) (List.getElem?_eq_getElem (l1 ▸ ht))
    obtain ⟨b0, q0, e⟩ := bind_ok e
    obtain ⟨b1, q1, e⟩ := bind_ok e
    exact ⟨b0, b1, _, lift_ok q0, lift_ok q1, e⟩
  · intro h
    obtain ⟨res, hres⟩ := mapM_exists (f := fun l => do F l (← lift (pyGet bs l.idx0)) (← lift (pyGet bs l.idx1))) (l := links) fun l hl => by
      obtain ⟨b0, b1, n, e0, e1, e⟩ := h l hl
      exact ⟨n, by rw [e0, e1]; exact e⟩
    obtain ⟨l1, g1⟩ := forall₂_getElem.1 (mapM_iff.1 hres)
    obtain ⟨rows, hr, hl⟩ := setRows_exists (rows := bs.map get) (ws := List.zip (Link.bodyIdx links) (res.map (fun x => vals x.1) ++ res.map fun x => vals x.2)) fun w hw => by
      rw [Link.bodyIdx, List.zip_append (by simp [l1])] at hw
      have key : ∀ t, (ht : t < links.length) → ∃ i j b0 b1, pyIndex bs.length links[t].idx0 = some i ∧ pyIndex bs.length links[t].idx1 = some j ∧ bs[i]? = some b0 ∧
          bs[j]? = some b1 ∧ (vals (res[t]'(l1 ▸ ht)).1).length = (get b0).length ∧ (vals (res[t]'(l1 ▸ ht)).2).length = (get b1).length := by
        intro t ht
        have e := g1 t _ _ (List.getElem?_eq_getElem ht) (List.getElem?_eq_getElem (l1 ▸ ht))
        obtain ⟨b0, q0, e⟩ := bind_ok e
        obtain ⟨b1, q1, e⟩ := bind_ok e
        obtain ⟨i, hi, e0⟩ := pyGet_ok.1 q0
        obtain ⟨j, hj, e1⟩ := pyGet_ok.1 q1
        exact ⟨i, j, b0, b1, hi, hj, e0, e1, hF _ (List.getElem_mem _) _ (List.mem_of_getElem? e0) _ (List.mem_of_getElem? e1) _ _ e⟩
      simp only [List.length_map]
      rcases List.mem_append.1 hw with hw | hw
      all_goals
        obtain ⟨t, ht, rfl⟩ := List.mem_iff_getElem.1 hw
        simp only [List.length_zip, List.length_map, l1, min_self] at ht
        obtain ⟨i, j, b0, b1, y1, y2, y3, y4, y5, y6⟩ := key t (l1 ▸ ht)
        simp only [List.getElem_zip, List.getElem_map]
      · exact ⟨i, y1, by simp only [List.getElem?_map, y3, Option.map_some, y5]⟩
      · exact ⟨j, y2, by simp only [List.getElem?_map, y4, Option.map_some, y6]⟩
    obtain ⟨r, hr'⟩ := mapM_exists (f := fun x : β × List R => put x.1 x.2) (l := List.zip bs rows) fun x hx => by
      obtain ⟨t, ht, rfl⟩ := List.mem_iff_getElem.1 hx
      simp only [List.length_zip] at ht
      simp only [List.getElem_zip]
      refine hput _ (List.getElem_mem _) _ ?_
      have := congrArg (·[t]?) hl
      simp only [List.getElem?_map] at this
      rw [List.getElem?_eq_getElem (by omega), List.getElem?_eq_getElem (by omega)] at this
      exact Option.some.inj this
    refine ⟨r, ?_⟩
    unfold scatter
    rw [hres]
    show (lift _ >>= _) = _
    rw [hr]
    exact hr'

end Verif
