import Verif.Model.Batch
import Verif.Spec.Batch
import Verif.Proofs.Backend
/-! # Broadcasting -/
namespace Verif
open Model Spec

/-- `Repeats`, from the last axis on. -/
inductive Rep : List Nat → List Nat → Prop
  | nil (t) : Rep [] t
  | one {s t} (b) : Rep s t → Rep (1 :: s) (b :: t)
  | same {s t} (b) : Rep s t → Rep (b :: s) (b :: t)

theorem rep_iff {s t : List Nat} : Rep s t ↔ s.length ≤ t.length ∧ ∀ k < s.length, s.getD k 0 = 1 ∨ s.getD k 0 = t.getD k 0 := by
  constructor
  · intro h
    induction h with
    | nil t => simp
    | one b h ih =>
      refine ⟨by simpa using ih.1, fun k hk => ?_⟩
      cases k with
      | zero => simp
      | succ k => simpa using ih.2 k (by simpa using hk)
    | same b h ih =>
      refine ⟨by simpa using ih.1, fun k hk => ?_⟩
      cases k with
      | zero => simp
      | succ k => simpa using ih.2 k (by simpa using hk)
  · rintro ⟨h1, h2⟩
    induction s generalizing t with
    | nil => exact .nil t
    | cons a s ih =>
      cases t with
      | nil => simp at h1
      | cons b t =>
        have := ih (t := t) (by simpa using h1) fun k hk => by simpa using h2 (k + 1) (by simpa using hk)
        rcases h2 0 (by simp) with h | h
        · simp only [List.getD_cons_zero] at h; subst h; exact .one b this
        · simp only [List.getD_cons_zero] at h; subst h; exact .same _ this

theorem repeats_iff {s t : List Nat} : Repeats s t ↔ Rep s.reverse t.reverse := by
  rw [rep_iff, Repeats]; simp

theorem Rep.refl (s : List Nat) : Rep s s := by
  induction s with
  | nil => exact .nil _
  | cons a s ih => exact .same a ih

theorem Rep.trans {s t u : List Nat} (h : Rep s t) (h' : Rep t u) : Rep s u := by
  induction h generalizing u with
  | nil t => exact .nil _
  | one b h ih =>
    cases h' with
    | one c h' => exact .one c (ih h')
    | same c h' => exact .one b (ih h')
  | same b h ih =>
    cases h' with
    | one c h' => exact .one c (ih h')
    | same c h' => exact .same b (ih h')

theorem Rep.length {s t : List Nat} (h : Rep s t) : s.length ≤ t.length := (rep_iff.1 h).1

theorem Rep.antisymm {s t : List Nat} (h : Rep s t) (h' : Rep t s) : s = t := by
  induction h with
  | nil t => cases h'; rfl
  | one b h ih =>
    cases h' with
    | one c h' => rw [ih h']
    | same c h' => rw [ih h']
  | same b h ih =>
    cases h' with
    | one c h' => rw [ih h']
    | same c h' => rw [ih h']

theorem bcRev_lub {s t : List Nat} {u : List Nat} (h : bcRev s t = some u) : Rep s u ∧ Rep t u ∧ ∀ v, Rep s v → Rep t v → Rep u v := by
  induction s generalizing t u with
  | nil =>
    rw [bcRev] at h
    cases h
    exact ⟨.nil _, .refl _, fun v _ h => h⟩
  | cons a s ih =>
    cases t with
    | nil =>
      rw [bcRev] at h
      cases h
      exact ⟨.refl _, .nil _, fun v h _ => h⟩
    | cons b t =>
      rw [bcRev] at h
      split_ifs at h with h1 h2
      · obtain ⟨w, hw, rfl⟩ := Option.map_eq_some_iff.1 h
        obtain ⟨i1, i2, i3⟩ := ih hw
        refine ⟨.same a i1, ?_, fun v hv hv' => ?_⟩
        · rcases h1 with rfl | rfl
          · exact .same _ i2
          · exact .one a i2
        · cases hv with
          | one c hv => cases hv' with
            | one _ hv' => exact .one _ (i3 _ hv hv')
            | same _ hv' => exact .one _ (i3 _ hv hv')
          | same c hv => cases hv' with
            | one _ hv' => exact .same _ (i3 _ hv hv')
            | same _ hv' => exact .same _ (i3 _ hv hv')
      · obtain ⟨w, hw, rfl⟩ := Option.map_eq_some_iff.1 h
        obtain ⟨i1, i2, i3⟩ := ih hw
        subst h2
        refine ⟨.one b i1, .same b i2, fun v hv hv' => ?_⟩
        cases hv' with
        | one c hv' => exact absurd (Or.inr rfl) h1
        | same c hv' =>
          cases hv with
          | one _ hv => exact .same _ (i3 _ hv hv')
          | same _ hv => exact .same _ (i3 _ hv hv')

theorem bcRev_some {s t v : List Nat} (h : Rep s v) (h' : Rep t v) : ∃ u, bcRev s t = some u := by
  induction h generalizing t with
  | nil w => exact ⟨t, by rw [bcRev]⟩
  | @one s w b h ih =>
    cases h' with
    | nil => exact ⟨_, by rw [bcRev]⟩
    | one _ h' => obtain ⟨u, hu⟩ := ih h'; exact ⟨1 :: u, by simp [bcRev, hu]⟩
    | same _ h' =>
      obtain ⟨u, hu⟩ := ih h'
      by_cases hb : b = 1
      · subst hb; exact ⟨1 :: u, by simp [bcRev, hu]⟩
      · exact ⟨b :: u, by rw [bcRev, if_neg (by omega), if_pos rfl, hu]; rfl⟩
  | @same s w b h ih =>
    cases h' with
    | nil => exact ⟨_, by rw [bcRev]⟩
    | one _ h' => obtain ⟨u, hu⟩ := ih h'; exact ⟨b :: u, by simp [bcRev, hu]⟩
    | same _ h' => obtain ⟨u, hu⟩ := ih h'; exact ⟨b :: u, by simp [bcRev, hu]⟩

theorem fold_lub {l : List (List Nat)} {a u : List Nat} (h : l.foldlM (fun acc s => bcRev acc s.reverse) a = some u) :
    Rep a u ∧ (∀ s ∈ l, Rep s.reverse u) ∧ ∀ v, Rep a v → (∀ s ∈ l, Rep s.reverse v) → Rep u v := by
  induction l generalizing a with
  | nil =>
    cases h
    exact ⟨.refl _, by simp, fun v h _ => h⟩
  | cons s l ih =>
    rw [List.foldlM_cons, Option.bind_eq_bind, Option.bind_eq_some_iff] at h
    obtain ⟨w, hw, h⟩ := h
    obtain ⟨w1, w2, w3⟩ := bcRev_lub hw
    obtain ⟨i1, i2, i3⟩ := ih h
    refine ⟨w1.trans i1, fun x hx => ?_, fun v hv hl => i3 v (w3 v hv (hl s (by simp))) fun x hx => hl x (by simp [hx])⟩
    rcases List.mem_cons.1 hx with rfl | hx
    · exact w2.trans i1
    · exact i2 x hx

theorem fold_some {l : List (List Nat)} {a v : List Nat} (ha : Rep a v) (h : ∀ s ∈ l, Rep s.reverse v) :
    ∃ u, l.foldlM (fun acc s => bcRev acc s.reverse) a = some u := by
  induction l generalizing a with
  | nil => exact ⟨a, rfl⟩
  | cons s l ih =>
    obtain ⟨w, hw⟩ := bcRev_some ha (h s (by simp))
    obtain ⟨u, hu⟩ := ih ((bcRev_lub hw).2.2 v ha (h s (by simp))) fun x hx => h x (by simp [hx])
    exact ⟨u, by rw [List.foldlM_cons, hw]; exact hu⟩

theorem Repeats.refl (s : List Nat) : Repeats s s := repeats_iff.2 (.refl _)
theorem Repeats.nil (s : List Nat) : Repeats [] s := repeats_iff.2 (.nil _)
theorem Repeats.trans {s t u : List Nat} (h : Repeats s t) (h' : Repeats t u) : Repeats s u := repeats_iff.2 ((repeats_iff.1 h).trans (repeats_iff.1 h'))
theorem Repeats.antisymm {s t : List Nat} (h : Repeats s t) (h' : Repeats t s) : s = t :=
  List.reverse_injective ((repeats_iff.1 h).antisymm (repeats_iff.1 h'))

theorem broadcastShapes_iff {l : List (List Nat)} {t : List Nat} : broadcastShapes l = some t ↔ Common l t := by
  constructor
  · intro h
    obtain ⟨u, hu, rfl⟩ := Option.map_eq_some_iff.1 h
    obtain ⟨-, h2, h3⟩ := fold_lub hu
    refine ⟨fun s hs => repeats_iff.2 (by simpa using h2 s hs), fun v hv => repeats_iff.2 ?_⟩
    rw [List.reverse_reverse]
    exact h3 _ (.nil _) fun s hs => repeats_iff.1 (hv s hs)
  · rintro ⟨h1, h2⟩
    obtain ⟨u, hu⟩ := fold_some (l := l) (a := []) (v := t.reverse) (.nil _) fun s hs => repeats_iff.1 (h1 s hs)
    obtain ⟨-, u2, u3⟩ := fold_lub hu
    rw [broadcastShapes, hu, Option.map_some, Option.some_inj]
    refine Repeats.antisymm (repeats_iff.2 ?_) (h2 _ fun s hs => repeats_iff.2 ?_)
    · rw [List.reverse_reverse]; exact u3 _ (.nil _) fun s hs => repeats_iff.1 (h1 s hs)
    · rw [List.reverse_reverse]; exact u2 s hs

theorem broadcastShapes_none {l : List (List Nat)} : broadcastShapes l = none ↔ ¬ ∃ t, ∀ s ∈ l, Repeats s t := by
  constructor
  · rintro h ⟨t, ht⟩
    obtain ⟨u, hu⟩ := fold_some (l := l) (a := []) (v := t.reverse) (.nil _) fun s hs => repeats_iff.1 (ht s hs)
    rw [broadcastShapes, hu] at h
    cases h
  · intro h
    cases hb : broadcastShapes l with
    | none => rfl
    | some t => exact absurd ⟨t, (broadcastShapes_iff.1 hb).1⟩ h

theorem common_pair {s t : List Nat} (h : Repeats s t) : broadcastShapes [t, s] = some t :=
  broadcastShapes_iff.2 ⟨by simp [h, Repeats.refl], fun u hu => hu t (by simp)⟩

theorem common_upper {l : List (List Nat)} {v : List Nat} (h : ∀ s ∈ l, Repeats s v) : ∃ t, broadcastShapes l = some t ∧ Common l t ∧ Repeats t v := by
  cases hb : broadcastShapes l with
  | none => exact absurd ⟨v, h⟩ (broadcastShapes_none.1 hb)
  | some t => exact ⟨t, rfl, broadcastShapes_iff.1 hb, (broadcastShapes_iff.1 hb).2 v h⟩

/-! ### Indices -/

theorem bcIdx_rev {s b : List Nat} (h : s.length ≤ b.length) :
    (bcIdx s b).reverse = List.zipWith (fun d i => if d = 1 then 0 else i) s.reverse b.reverse := by
  rw [bcIdx, clipIdx, List.reverse_zipWith (by simp; omega), List.reverse_drop]
  rw [show b.length - (b.length - s.length) = s.reverse.length by simp; omega]
  have : ∀ (f : Nat → Nat → Nat) (x y : List Nat), List.zipWith f x (y.take x.length) = List.zipWith f x y := by
    intro f x
    induction x with
    | nil => simp
    | cons a x ih => intro y; cases y <;> simp [ih]
  exact this _ _ _

theorem bcIdx_readAt {s b : List Nat} (h : s.length ≤ b.length) : ReadAt s b (bcIdx s b) := by
  have hl : (bcIdx s b).length = s.length := by simp [bcIdx, clipIdx]; omega
  refine ⟨hl, fun k hk => ?_⟩
  rw [bcIdx_rev h, List.getD_eq_getElem?_getD, List.getD_eq_getElem?_getD, List.getD_eq_getElem?_getD, List.getElem?_zipWith,
    List.getElem?_eq_getElem (by simpa using hk), List.getElem?_eq_getElem (l := b.reverse) (by simp; omega)]
  simp

theorem readAt_unique {s b i : List Nat} (h : s.length ≤ b.length) (hi : ReadAt s b i) : i = bcIdx s b := by
  apply List.reverse_injective
  have h' := bcIdx_readAt h
  apply List.ext_getElem (by simp [hi.1, h'.1])
  intro k h1 h2
  have hk : k < s.length := by simpa [hi.1] using h1
  have := (hi.2 k hk).trans (h'.2 k hk).symm
  rwa [getD_lt _ _ h1, getD_lt _ _ h2] at this

theorem rep_valid {s t b : List Nat} (h : Rep s t) (hb : Valid b t) : Valid (List.zipWith (fun d i => if d = 1 then 0 else i) s b) s := by
  induction h generalizing b with
  | nil t => exact .nil
  | one c h ih => cases hb with | cons h1 h2 => exact .cons (by simp) (ih h2)
  | same c h ih => cases hb with | cons h1 h2 => exact .cons (by show (if c = 1 then 0 else _) < c; split <;> omega) (ih h2)

theorem valid_reverse {b s : List Nat} : Valid b.reverse s.reverse ↔ Valid b s := List.forall₂_reverse_iff

theorem bcIdx_valid {s t b : List Nat} (h : Repeats s t) (hb : Valid b t) : Valid (bcIdx s b) s := by
  rw [← valid_reverse, bcIdx_rev (by rw [hb.length]; exact h.1)]
  exact rep_valid (repeats_iff.1 h) (valid_reverse.2 hb)

theorem zip_trans {s t b : List Nat} (h : Rep s t) (hb : b.length = t.length) :
    List.zipWith (fun d i => if d = 1 then 0 else i) s (List.zipWith (fun d i => if d = 1 then 0 else i) t b) =
      List.zipWith (fun d i => if d = 1 then 0 else i) s b := by
  induction h generalizing b with
  | nil t => rfl
  | one c h ih => cases b with
    | nil => simp at hb
    | cons x b => simp [ih (b := b) (by simpa using hb)]
  | same c h ih => cases b with
    | nil => simp at hb
    | cons x b =>
      simp only [List.zipWith_cons_cons, ih (b := b) (by simpa using hb)]
      split <;> rfl

theorem bcIdx_bcIdx {s t v b : List Nat} (h : Repeats s t) (h' : Repeats t v) (hb : b.length = v.length) : bcIdx s (bcIdx t b) = bcIdx s b := by
  have h1 : t.length ≤ b.length := by rw [hb]; exact h'.1
  apply List.reverse_injective
  rw [bcIdx_rev (by rw [(bcIdx_readAt h1).1]; exact h.1), bcIdx_rev h1, bcIdx_rev (h.1.trans h1)]
  have h2 : List.zipWith (fun d i => if d = 1 then 0 else i) t.reverse b.reverse = List.zipWith (fun d i => if d = 1 then 0 else i) t.reverse (b.reverse.take t.length) := by
    apply List.ext_getElem
    · simp
    · intro i h1 h2; simp
  rw [h2, zip_trans (repeats_iff.1 h) (by simp; omega)]
  apply List.ext_getElem
  · have := h.1; simp; omega
  · intro i h1 h2; simp

theorem bcIdx_self {s b : List Nat} (h : Valid b s) : bcIdx s b = b := by
  rw [bcIdx, h.length, Nat.sub_self, List.drop_zero, clipIdx_eq h]

section Arr
variable {R : Type}

/-- The array `T`, repeated to the shape `B`, has the entries `v`. -/
def Holds (T : Tensor R) (B : List Nat) (v : List Nat → R) : Prop := Repeats T.shape B ∧ ∀ b, Valid b B → T.get (bcIdx T.shape b) = v b

theorem Holds.bin {S T : Tensor R} {B : List Nat} {v w : List Nat → R} (f : R → R → R) (hS : Holds S B v) (hT : Holds T B w) :
    ∃ U, Tensor.bin f S T = some U ∧ Common [S.shape, T.shape] U.shape ∧ Holds U B fun b => f (v b) (w b) := by
  obtain ⟨u, hu, hc, hr⟩ := common_upper (l := [S.shape, T.shape]) (v := B) (by simp [hS.1, hT.1])
  refine ⟨_, by rw [Tensor.bin, hu]; rfl, hc, hr, fun b hb => ?_⟩
  simp only
  rw [bcIdx_bcIdx (hc.1 _ (by simp)) hr hb.length, bcIdx_bcIdx (hc.1 _ (by simp)) hr hb.length, hS.2 b hb, hT.2 b hb]

theorem Holds.congr {T : Tensor R} {B : List Nat} {v w : List Nat → R} (h : Holds T B v) (hvw : ∀ b, Valid b B → v b = w b) : Holds T B w :=
  ⟨h.1, fun b hb => (h.2 b hb).trans (hvw b hb)⟩

end Arr

section Einsum
variable {R : Type} [CommRing R]

/-- Arrays of the same shape with the same entries. -/
def Same (a b : Tensor R) : Prop := a.shape = b.shape ∧ ∀ i, Valid i a.shape → a.get i = b.get i

theorem Same.refl (a : Tensor R) : Same a a := ⟨rfl, fun _ _ => rfl⟩

theorem labelled_eq {ts : List (List Nat)} {ops ops' : List (Tensor R)} (h : ops.map (·.shape) = ops'.map (·.shape)) :
    ((ts.zip ops).flatMap fun p => p.1.zip p.2.shape) = (ts.zip ops').flatMap fun p => p.1.zip p.2.shape := by
  have : ∀ ops : List (Tensor R), ((ts.zip ops).flatMap fun p => p.1.zip p.2.shape) = (ts.zip (ops.map (·.shape))).flatMap fun p => p.1.zip p.2 := by
    intro ops
    rw [List.zip_map_right, List.flatMap_map]
    rfl
  rw [this, this, h]

theorem same_shapes {ops ops' : List (Tensor R)} (h : List.Forall₂ Same ops ops') : ops.map (·.shape) = ops'.map (·.shape) := by
  induction h with
  | nil => rfl
  | cons h _ ih => rw [List.map_cons, List.map_cons, ih, h.1]

/-- Whether `einsum` raises, and the shape of its result, depend on the shapes only. -/
theorem einsum_shape {e : EinsumExpr} {ops ops' : List (Tensor R)} (h : ops.map (·.shape) = ops'.map (·.shape)) :
    (einsum e ops).map (·.shape) = (einsum e ops').map (·.shape) := by
  have hn : ops.map (·.ndim) = ops'.map (·.ndim) := by
    have := congrArg (List.map List.length) h
    simpa [Tensor.ndim, Function.comp_def] using this
  simp only [einsum, labelled_eq h, hn]
  split <;> rfl

theorem zip_same {β : Type} {ts : List (List Nat)} {ops ops' : List (Tensor R)} (h : List.Forall₂ Same ops ops') {F : List Nat × Tensor R → β}
    (hF : ∀ t a b, (t, a) ∈ ts.zip ops → Same a b → F (t, a) = F (t, b)) : (ts.zip ops).map F = (ts.zip ops').map F := by
  induction h generalizing ts with
  | nil => rfl
  | cons h _ ih =>
    cases ts with
    | nil => rfl
    | cons t ts =>
      rw [List.zip_cons_cons, List.zip_cons_cons, List.map_cons, List.map_cons, hF t _ _ (by simp) h, ih fun t a b hm => hF t a b (by simp [hm])]

theorem zip_valid {t sh : List Nat} {f : Nat → Nat} (hl : t.length = sh.length) (h : ∀ p ∈ t.zip sh, p.2 = 1 ∨ f p.1 < p.2) :
    Valid (List.zipWith (fun c d => if d = 1 then 0 else f c) t sh) sh := by
  induction t generalizing sh with
  | nil => cases sh with
    | nil => exact .nil
    | cons => simp at hl
  | cons c t ih => cases sh with
    | nil => simp at hl
    | cons d sh =>
      refine .cons ?_ (ih (by simpa using hl) fun p hp => h p (by simp [hp]))
      have := h (c, d) (by simp)
      show (if d = 1 then 0 else f c) < d
      split
      · omega
      · rcases this with h | h
        · exact absurd h (by assumption)
        · exact h

theorem einsum_same {e : EinsumExpr} {ops ops' : List (Tensor R)} (hl : ∀ c ∈ e.terms.flatten, c < 26) (h : List.Forall₂ Same ops ops')
    {t : Tensor R} (ht : einsum e ops = some t) : ∃ t', einsum e ops' = some t' ∧ Same t t' := by
  have hs := same_shapes h
  have hn : ops.map (·.ndim) = ops'.map (·.ndim) := by
    have := congrArg (List.map List.length) hs
    simpa [Tensor.ndim, Function.comp_def] using this
  have hlab := labelled_eq (ts := e.terms) hs
  simp only [einsum] at ht ⊢
  rw [← hlab, ← hn]
  split at ht
  next hc =>
    rw [if_pos hc]
    cases ht
    refine ⟨_, rfl, rfl, fun idx hidx => ?_⟩
    simp only at hidx ⊢
    refine sumIdx_congr fun s hsv => ?_
    congr 1
    refine zip_same h fun term a b hm hab => ?_
    have hab1 := hab.1
    simp only
    rw [← hab1]
    refine hab.2 _ (zip_valid ?_ fun p hp => ?_)
    · obtain ⟨i, hi, hia⟩ := List.getElem_of_mem hm
      rw [List.getElem_zip] at hia
      rw [List.length_zip] at hi
      have := congrArg (·[i]?) hc.1
      simp only [List.getElem?_map, List.getElem?_eq_getElem (show i < e.terms.length by omega), List.getElem?_eq_getElem (show i < ops.length by omega), Option.map_some, Option.some_inj] at this
      simp only [Prod.mk.injEq] at hia
      rw [hia.1, hia.2] at this
      exact this
    · have hpm : p ∈ (e.terms.zip ops).flatMap fun p => p.1.zip p.2.shape := List.mem_flatMap.2 ⟨_, hm, hp⟩
      rcases hc.2 p hpm with h1 | h1
      · exact .inl h1
      · right
        have hct : p.1 ∈ e.terms.flatten := List.mem_flatten.2 ⟨term, (List.of_mem_zip hm).1, (List.of_mem_zip hp).1⟩
        have key : ∀ {L i : List Nat} {sz : Nat → Nat}, Valid i (L.map sz) → p.1 ∈ L → i.getD (L.idxOf p.1) 0 < sz p.1 := by
          intro L i sz hv hL
          have := hv.get (i := L.idxOf p.1) (by simpa using List.idxOf_lt_length_of_mem hL)
          rwa [getD_lt (List.map sz _) _ (by simpa using List.idxOf_lt_length_of_mem hL), List.getElem_map, List.getElem_idxOf] at this
        rw [h1, einsumEnv]
        split
        · exact key hidx (by assumption)
        · exact key hsv (List.mem_filter.2 ⟨List.mem_range.2 (hl _ hct), by simpa using ⟨List.mem_flatten.1 hct, by assumption⟩⟩)
  next hc => cases ht

/-- `einsumB` evaluates the expression at each index of the leading axes. -/
theorem einsumB_eq {e : EinsumExpr} {ops : List (Tensor R)} (h1 : e.terms.length = ops.length) (h2 : ∀ p ∈ e.terms.zip ops, p.1.length ≤ p.2.ndim)
    {B sh : List Nat} (hB : Common ((e.terms.zip ops).map fun p => p.2.shape.take (p.2.ndim - p.1.length)) B)
    (hs : ∃ b, b.length = B.length ∧ ∃ t, einsum e ((e.terms.zip ops).map fun p => p.2.lead (bcIdx (p.2.shape.take (p.2.ndim - p.1.length)) b)) = some t ∧ t.shape = sh) :
    ∃ T, einsumB e ops = some T ∧ T.shape = B ++ sh ∧ ∀ b, b.length = B.length →
      ∃ t, einsum e ((e.terms.zip ops).map fun p => p.2.lead (bcIdx (p.2.shape.take (p.2.ndim - p.1.length)) b)) = some t ∧ t.shape = sh ∧ ∀ i, T.get (b ++ i) = t.get i := by
  have key : ∀ b b' : List Nat, b.length = B.length → b'.length = B.length →
      (einsum e ((e.terms.zip ops).map fun p => p.2.lead (bcIdx (p.2.shape.take (p.2.ndim - p.1.length)) b))).map (·.shape) =
      (einsum e ((e.terms.zip ops).map fun p => p.2.lead (bcIdx (p.2.shape.take (p.2.ndim - p.1.length)) b'))).map (·.shape) := by
    intro b b' hb hb'
    apply einsum_shape
    rw [List.map_map, List.map_map]
    apply List.map_congr_left
    intro p hp
    have hr := hB.1 _ (List.mem_map.2 ⟨p, hp, rfl⟩)
    have l1 := (bcIdx_readAt (s := p.2.shape.take (p.2.ndim - p.1.length)) (b := b) (by rw [hb]; exact hr.1)).1
    have l2 := (bcIdx_readAt (s := p.2.shape.take (p.2.ndim - p.1.length)) (b := b') (by rw [hb']; exact hr.1)).1
    simp only [Function.comp, Tensor.lead]
    rw [l1, l2]
  obtain ⟨b0, hb0, t0, ht0, hs0⟩ := hs
  have hall : ∀ b, b.length = B.length → ∃ t, einsum e ((e.terms.zip ops).map fun p => p.2.lead (bcIdx (p.2.shape.take (p.2.ndim - p.1.length)) b)) = some t ∧ t.shape = sh := by
    intro b hb
    have := key b b0 hb hb0
    rw [ht0, Option.map_some, hs0] at this
    exact Option.map_eq_some_iff.1 this
  obtain ⟨t1, ht1, hs1⟩ := hall (B.map fun _ => 0) (by simp)
  refine ⟨⟨B ++ t1.shape, fun idx => ((einsum e ((e.terms.zip ops).map fun p => p.2.lead (bcIdx (p.2.shape.take (p.2.ndim - p.1.length)) (idx.take B.length)))).map
    fun t => t.get (idx.drop B.length)).getD 0⟩, ?_, by rw [hs1], fun b hb => ?_⟩
  · rw [einsumB, if_pos ⟨h1, h2⟩, broadcastShapes_iff.2 hB]
    show (Option.bind (einsum e _) _) = _
    rw [ht1]
    rfl
  · obtain ⟨t, ht, hst⟩ := hall b hb
    refine ⟨t, ht, hst, fun i => ?_⟩
    simp only
    rw [List.take_left' hb, List.drop_left' hb, ht]
    rfl

theorem einsumB_none {e : EinsumExpr} {ops : List (Tensor R)} (h : broadcastShapes ((e.terms.zip ops).map fun p => p.2.shape.take (p.2.ndim - p.1.length)) = none) :
    einsumB e ops = none := by
  rw [einsumB, h]
  split <;> rfl

end Einsum
end Verif
