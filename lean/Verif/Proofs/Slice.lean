import Verif.Proofs.Values
/-! # Kernels as functions of blades; slicing -/
namespace Verif
open Model Spec

variable {A : Alg} {R : Type} [CommRing R]

/-- Indices of blades in the axes. -/
def idxs (Ss : List SubSpace) (bs : List Nat) : List Nat := List.zipWith (fun (S : SubSpace) b => S.blades.idxOf b) Ss bs

/-- Membership in all axes. -/
def InAxes (bs : List Nat) (Ss : List SubSpace) : Prop := List.Forall₂ (fun b (S : SubSpace) => b ∈ S.blades) bs Ss

instance (bs : List Nat) (Ss : List SubSpace) : Decidable (InAxes bs Ss) := by unfold InAxes; infer_instance

/-- The kernel as a function of blades, zero outside the axes. -/
def kb (op : Operator Int) (bs : List Nat) : Int := if InAxes bs op.axes then op.kernel.get (idxs op.axes bs) else 0

/-- Sum over tuples of blades. -/
def sumB : List (Finset Nat) → (List Nat → R) → R
  | [], f => f []
  | S :: Ss, f => ∑ b ∈ S, sumB Ss fun bs => f (b :: bs)

theorem sumB_congr {Ss : List (Finset Nat)} {f g : List Nat → R} (h : ∀ bs, List.Forall₂ (· ∈ ·) bs Ss → f bs = g bs) : sumB Ss f = sumB Ss g := by
  induction Ss generalizing f g with
  | nil => exact h [] .nil
  | cons S Ss ih => exact Finset.sum_congr rfl fun b hb => ih fun bs hbs => h _ (.cons hb hbs)

theorem sumB_zero (Ss : List (Finset Nat)) : sumB Ss (fun _ => (0 : R)) = 0 := by
  induction Ss with
  | nil => rfl
  | cons S Ss ih => simp [sumB, ih]

theorem sumB_mul (Ss : List (Finset Nat)) (c : R) (f : List Nat → R) : sumB Ss (fun bs => c * f bs) = c * sumB Ss f := by
  induction Ss generalizing f with
  | nil => rfl
  | cons S Ss ih => simp only [sumB, ih, Finset.mul_sum]

/-- Sums over different ranges agree if the coefficients agree on the second range, and the terms are zero outside. -/
theorem sumB_transfer {Ss Ts : List (Finset Nat)} {cs ds : List (Nat → R)} (hST : Ss.length = Ts.length) (hc : cs.length = Ss.length)
    (hd : ds.length = Ts.length) (h0 : ∀ i (h1 : i < cs.length) (h2 : i < Ss.length), ∀ b ∉ Ss[i], cs[i] b = 0)
    (he : ∀ i (h1 : i < cs.length) (h2 : i < ds.length) (h3 : i < Ts.length), ∀ b ∈ Ts[i], ds[i] b = cs[i] b)
    {f g : List Nat → R} (hfg : ∀ bs, List.Forall₂ (· ∈ ·) bs Ss → f bs = g bs) (hg : ∀ bs, bs.length = Ts.length → ¬ List.Forall₂ (· ∈ ·) bs Ts → g bs = 0) :
    sumB Ss (fun bs => f bs * (List.zipWith (fun c b => c b) cs bs).prod) = sumB Ts fun bs => g bs * (List.zipWith (fun c b => c b) ds bs).prod := by
  induction Ss generalizing Ts cs ds f g with
  | nil =>
    obtain rfl : Ts = [] := List.length_eq_zero_iff.1 hST.symm
    simp [sumB, hfg [] .nil]
  | cons S Ss ih =>
    obtain ⟨T, Ts, rfl⟩ := List.exists_cons_of_length_pos (l := Ts) (by rw [← hST]; simp)
    obtain ⟨c, cs, rfl⟩ := List.exists_cons_of_length_pos (l := cs) (by rw [hc]; simp)
    obtain ⟨d, ds, rfl⟩ := List.exists_cons_of_length_pos (l := ds) (by rw [hd]; simp)
    simp only [List.length_cons, Nat.add_right_cancel_iff] at hST hc hd
    have h0' : ∀ b ∉ S, c b = 0 := fun b hb => h0 0 (by simp) (by simp) b hb
    have he' : ∀ b ∈ T, d b = c b := fun b hb => he 0 (by simp) (by simp) (by simp) b hb
    have hgT : ∀ b ∉ T, ∀ bs, bs.length = Ts.length → g (b :: bs) = 0 := fun b hb bs hl => hg _ (by simp [hl]) fun h => by cases h with | cons h _ => exact hb h
    have hpull : ∀ (Us : List (Finset Nat)) (q : Nat → R) (b : Nat) (F : List Nat → R) (es : List (Nat → R)),
        sumB Us (fun bs => F (b :: bs) * (List.zipWith (fun c b => c b) (q :: es) (b :: bs)).prod) =
          q b * sumB Us fun bs => F (b :: bs) * (List.zipWith (fun c b => c b) es bs).prod := by
      intro Us q b F es
      rw [← sumB_mul]
      congr 1; funext bs
      rw [List.zipWith_cons_cons, List.prod_cons]; ring
    simp only [sumB, hpull]
    rw [← Finset.sum_subset (s₁ := S ∩ T) Finset.inter_subset_left, ← Finset.sum_subset (s₁ := S ∩ T) (s₂ := T) Finset.inter_subset_right]
    · refine Finset.sum_congr rfl fun b hb => ?_
      rw [Finset.mem_inter] at hb
      rw [he' b hb.2]
      congr 1
      exact ih hST hc hd (fun i h1 h2 => h0 (i + 1) (by simpa using h1) (by simpa using h2))
        (fun i h1 h2 h3 => he (i + 1) (by simpa using h1) (by simpa using h2) (by simpa using h3))
        (fun bs hbs => hfg _ (.cons hb.1 hbs)) (fun bs hl hbs => hg _ (by simp [hl]) fun h => by cases h with | cons _ h => exact hbs h)
    · intro b hb hb'
      rw [he' b hb, h0' b (fun h => hb' (Finset.mem_inter.2 ⟨h, hb⟩)), zero_mul]
    · intro b hb hb'
      have hbT : b ∉ T := fun h => hb' (Finset.mem_inter.2 ⟨hb, h⟩)
      rw [sumB_congr (g := fun _ => 0), sumB_zero, mul_zero]
      intro bs hbs
      rw [hfg _ (.cons hb hbs), hgT b hbT bs (by rw [hbs.length_eq, hST]), zero_mul]

theorem sum_blades {S : SubSpace} (hS : S.blades.Nodup) (f : Nat → R) :
    ∑ i ∈ Finset.range S.blades.length, f i = ∑ b ∈ S.blades.toFinset, f (S.blades.idxOf b) := by
  rw [List.sum_toFinset _ hS, ← lsum_range]
  congr 1
  apply List.ext_getElem (by simp)
  intro i h1 h2
  simp [hS.idxOf_getElem]

theorem sumIdx_blades {Ss : List SubSpace} (hS : ∀ S ∈ Ss, S.blades.Nodup) (f : List Nat → R) :
    sumIdx (Ss.map (·.blades.length)) f = sumB (Ss.map (·.blades.toFinset)) fun bs => f (idxs Ss bs) := by
  induction Ss generalizing f with
  | nil => simp [sumIdx, allIdx, sumB, idxs]
  | cons S Ss ih =>
    rw [List.map_cons, sumIdx_cons, sum_blades (hS S (by simp))]
    simp only [sumB, List.map_cons]
    refine Finset.sum_congr rfl fun b _ => ?_
    rw [ih fun T hT => hS T (by simp [hT])]
    rfl

theorem forall₂_toFinset {bs : List Nat} {Ss : List SubSpace} :
    List.Forall₂ (· ∈ ·) bs (Ss.map (·.blades.toFinset)) ↔ InAxes bs Ss := by
  rw [List.forall₂_map_right_iff]
  simp [InAxes]

theorem coeff_idxOf {x : MV R} (hx : WfMV A x) {b : Nat} (hb : b ∈ x.sub.blades) : coeff x b = x.vals.getD (x.sub.blades.idxOf b) 0 := by
  obtain ⟨⟨bs⟩, v⟩ := x
  have hl := hx.len
  simp only at hl hb ⊢
  have key : ∀ (bs : List Nat) (v : List R), v.length = bs.length → b ∈ bs → ((bs.zip v).lookup b).getD 0 = v.getD (bs.idxOf b) 0 := by
    intro bs
    induction bs with
    | nil => simp
    | cons c bs ih =>
      intro v hl hb
      obtain ⟨w, v, rfl⟩ := List.exists_cons_of_length_pos (l := v) (by rw [hl]; simp)
      rw [List.zip_cons_cons, List.lookup_cons, List.idxOf_cons]
      by_cases hbc : b = c
      · subst hbc; simp
      · have : (b == c) = false := by simpa using hbc
        have h' : (c == b) = false := by simpa using fun h => hbc (Eq.symm h)
        simp only [this, h', cond_false]
        rw [ih v (by simpa using hl) (by simpa [hbc] using hb)]
        simp
  exact key bs v hl hb

theorem prodAt_idxs {args : List (MV R)} (hw : ∀ x ∈ args, WfMV A x) {bs : List Nat} (hb : InAxes bs (args.map (·.sub))) :
    prodAt (args.map (·.vals)) (idxs (args.map (·.sub)) bs) = (List.zipWith (fun c b => c b) (args.map coeff) bs).prod := by
  induction args generalizing bs with
  | nil => cases hb; rfl
  | cons x args ih =>
    cases hb with
    | @cons b _ bs _ h h' =>
      have := ih (fun y hy => hw y (by simp [hy])) h'
      simp only [prodAt, idxs, List.map_cons, List.zipWith_cons_cons, List.prod_cons] at this ⊢
      rw [this, coeff_idxOf (hw x (by simp)) h]

/-- Coefficients of the result of a call, from the kernel as a function of blades. -/
theorem call_coeff {op : Operator Int} (h : WfOp A op) {args : List (MV R)} (hs : args.map (·.sub) = op.inputs) (hw : ∀ x ∈ args, WfMV A x) :
    ∃ z, MV.call (some op) args = some z ∧ WfMV A z ∧ z.sub = op.output ∧
      ∀ b, coeff z b = sumB (op.inputs.map (·.blades.toFinset)) fun bs =>
        ((kb op (bs ++ [b]) : Int) : R) * (List.zipWith (fun c b => c b) (args.map coeff) bs).prod := by
  have hl : (op.apply R (args.map (·.vals))).length = op.output.blades.length := apply_length R h _
  have hcall : MV.call (some op) args = some ⟨op.output, op.apply R (args.map (·.vals))⟩ := by
    rw [MV.call, Option.bind_eq_bind, Option.bind_some, if_pos, MV.construct, if_pos hl]
    rw [← hs, List.map_map]
    apply List.map_congr_left
    intro x hx
    exact (hw x hx).len.symm
  have hz : WfMV A (⟨op.output, op.apply R (args.map (·.vals))⟩ : MV R) := ⟨h.wf_output, hl⟩
  refine ⟨_, hcall, hz, rfl, fun b => ?_⟩
  by_cases hb : b ∈ op.output.blades
  · rw [coeff_idxOf hz hb]
    simp only
    rw [Operator.apply, eval_getD (wf_cast R h) _ (o := List.idxOf b op.output.blades) (List.idxOf_lt_length_of_mem hb), evalAt_eq, (wf_cast R h).shape_in]
    change sumIdx (op.inputs.map (·.blades.length)) _ = _
    rw [sumIdx_blades fun S hS => (h.wf_inputs S hS).nodup]
    refine sumB_congr fun bs hbs => ?_
    rw [forall₂_toFinset] at hbs
    have hin : InAxes (bs ++ [b]) op.axes := by rw [h.axes_eq]; exact List.rel_append hbs (.cons hb .nil)
    have hlen : op.inputs.length = bs.length := hbs.length_eq.symm
    have e : idxs op.axes (bs ++ [b]) = idxs op.inputs bs ++ [op.output.blades.idxOf b] := by
      rw [h.axes_eq, idxs, List.zipWith_append hlen]; rfl
    rw [← prodAt_idxs hw (by rw [hs]; exact hbs), hs, kb, if_pos hin, e]
    rfl
  · rw [coeff_notMem (by exact hb), sumB_congr (g := fun _ => 0), sumB_zero]
    intro bs hbs
    rw [kb, if_neg, Int.cast_zero, zero_mul]
    intro hin
    rw [h.axes_eq] at hin
    rw [forall₂_toFinset] at hbs
    have := List.forall₂_drop bs.length hin
    rw [List.drop_left, hbs.length_eq, List.drop_left] at this
    cases this with | cons h _ => exact hb h

/-- Two operators with the same kernel as a function of blades (on the axes of the first) agree, on inputs that agree on the
blades of the second. -/
theorem call_transfer {s op : Operator Int} (hs : WfOp A s) (h : WfOp A op) (hlen : s.inputs.length = op.inputs.length)
    (hk : ∀ bs, InAxes bs s.axes → kb s bs = kb op bs)
    {xs ys : List (MV R)} (hx : xs.map (·.sub) = s.inputs) (hy : ys.map (·.sub) = op.inputs) (hxw : ∀ x ∈ xs, WfMV A x) (hyw : ∀ y ∈ ys, WfMV A y)
    (he : List.Forall₂ (fun x y => ∀ b ∈ y.sub.blades, coeff y b = coeff x b) xs ys) :
    ∃ z w, MV.call (some s) xs = some z ∧ MV.call (some op) ys = some w ∧ WfMV A z ∧ WfMV A w ∧ z.sub = s.output ∧ w.sub = op.output ∧
      ∀ b ∈ s.output.blades, coeff z b = coeff w b := by
  obtain ⟨z, z1, z2, z3, z4⟩ := call_coeff hs hx hxw
  obtain ⟨w, w1, w2, w3, w4⟩ := call_coeff h hy hyw
  refine ⟨z, w, z1, w1, z2, w2, z3, w3, fun b hb => ?_⟩
  rw [z4, w4]
  have hxl : xs.length = s.inputs.length := by rw [← hx]; simp
  have hyl : ys.length = op.inputs.length := by rw [← hy]; simp
  have hxi : ∀ i (h1 : i < xs.length) (h2 : i < s.inputs.length), s.inputs[i] = xs[i].sub := by
    intro i h1 h2; simp only [← hx, List.getElem_map]
  have hyi : ∀ i (h1 : i < ys.length) (h2 : i < op.inputs.length), op.inputs[i] = ys[i].sub := by
    intro i h1 h2; simp only [← hy, List.getElem_map]
  apply sumB_transfer
  · simpa using hlen
  · simpa using hxl
  · simpa using hyl
  · intro i h1 h2 b' hb'
    simp only [List.getElem_map, List.mem_toFinset] at hb' ⊢
    apply coeff_notMem
    rw [← hxi i (by simpa using h1) (by simpa using h2)]
    exact hb'
  · intro i h1 h2 h3 b' hb'
    simp only [List.getElem_map, List.mem_toFinset] at hb' ⊢
    have h1' : i < xs.length := by simpa using h1
    have h2' : i < ys.length := by simpa using h2
    have := he.get (i := i) h1' h2'
    apply this
    simp only [List.get_eq_getElem]
    rw [← hyi i h2' (by simpa using h3)]
    exact hb'
  · intro bs hbs
    rw [forall₂_toFinset] at hbs
    rw [hk _ (by rw [hs.axes_eq]; exact List.rel_append hbs (.cons hb .nil))]
  · intro bs hl hbs
    rw [forall₂_toFinset] at hbs
    rw [kb, if_neg, Int.cast_zero]
    intro hin
    apply hbs
    rw [h.axes_eq] at hin
    have := List.forall₂_take bs.length hin
    rw [List.take_left] at this
    rw [List.length_map] at hl
    rwa [hl, List.take_left] at this

/-! ## Successive `take` -/

/-- Index translation of successive `take`s along axes `i`, `i+1`, …. -/
def trIdx (L : List (List Nat)) (i : Nat) (idx : List Nat) : List Nat :=
  (List.range idx.length).map fun m => if m < i then idx.getD m 0 else match L[m - i]? with
    | some l => l.getD (idx.getD m 0) 0
    | none => idx.getD m 0

theorem trIdx_length (L : List (List Nat)) (i : Nat) (idx : List Nat) : (trIdx L i idx).length = idx.length := by simp [trIdx]

theorem trIdx_nil (i : Nat) (idx : List Nat) : trIdx [] i idx = idx := by
  apply List.ext_getElem (by simp [trIdx])
  intro m h1 h2
  simp [trIdx, List.getD_eq_getElem?_getD, List.getElem?_eq_getElem h2]

theorem trIdx_cons (l : List Nat) (L : List (List Nat)) (i : Nat) (idx : List Nat) :
    (trIdx L (i + 1) idx).set i (l.getD ((trIdx L (i + 1) idx).getD i 0) 0) = trIdx (l :: L) i idx := by
  apply List.ext_getElem (by simp [trIdx])
  intro m h1 h2
  have hm : m < idx.length := by simpa [trIdx] using h2
  rw [List.getElem_set]
  by_cases hmi : i = m
  · subst hmi
    have : (trIdx L (i + 1) idx).getD i 0 = idx.getD i 0 := by
      rw [List.getD_eq_getElem?_getD, List.getElem?_eq_getElem (by simpa [trIdx] using hm)]
      simp [trIdx]
    rw [if_pos rfl, this]
    simp [trIdx]
  · rw [if_neg hmi]
    simp only [trIdx, List.getElem_map, List.getElem_range]
    by_cases h3 : m < i
    · rw [if_pos h3, if_pos (by omega)]
    · rw [if_neg h3, if_neg (by omega)]
      obtain ⟨j, hj⟩ : ∃ j, m - i = j + 1 := ⟨m - i - 1, by omega⟩
      rw [hj, List.getElem?_cons_succ, show m - (i + 1) = j by omega]

theorem idxs_length {Ss : List SubSpace} {bs : List Nat} (h : bs.length = Ss.length) : (idxs Ss bs).length = Ss.length := by
  simp [idxs, h]

theorem idxs_getD {Ss : List SubSpace} {bs : List Nat} (h : bs.length = Ss.length) {i : Nat} (hi : i < Ss.length) :
    (idxs Ss bs).getD i 0 = (Ss.getD i ⟨[]⟩).blades.idxOf (bs.getD i 0) := by
  have hi' : i < bs.length := by omega
  rw [getD_lt _ _ (by rw [idxs_length h]; exact hi), getD_lt _ _ hi, getD_lt _ _ hi']
  simp [idxs]

theorem sliceLoop_spec (Ss : List SubSpace) (op : Operator Int) (i : Nat) (hsh : op.kernel.shape = op.axes.map (·.blades.length))
    (hl : i + Ss.length ≤ op.axes.length)
    (hsub : ∀ j < Ss.length, ∀ b ∈ (Ss.getD j ⟨[]⟩).blades, b ∈ (op.axes.getD (i + j) ⟨[]⟩).blades) :
    ∃ s, op.sliceLoop i Ss = some s ∧ s.axes = op.axes.take i ++ Ss ++ op.axes.drop (i + Ss.length) ∧
      s.kernel.shape = s.axes.map (·.blades.length) ∧ ∀ bs, InAxes bs s.axes → s.kernel.get (idxs s.axes bs) = op.kernel.get (idxs op.axes bs) := by
  induction Ss generalizing op i with
  | nil => exact ⟨op, rfl, by simp, hsh, fun bs _ => rfl⟩
  | cons S Ss ih =>
    have hi : i < op.axes.length := by simp at hl; omega
    have h0 : ∀ b ∈ S.blades, b ∈ op.axes[i].blades := by
      have := hsub 0 (by simp)
      rwa [List.getD_cons_zero, Nat.add_zero, getD_lt _ _ hi] at this
    have hnd : op.kernel.ndim = op.axes.length := by rw [Tensor.ndim, hsh, List.length_map]
    have htake : op.kernel.take (S.blades.map op.axes[i].blades.idxOf) i = some
        ⟨op.kernel.shape.set i (S.blades.map op.axes[i].blades.idxOf).length,
          fun idx => op.kernel.get (idx.set i ((S.blades.map op.axes[i].blades.idxOf).getD (idx.getD i 0) 0))⟩ := by
      rw [Tensor.take, if_pos]
      refine ⟨by omega, fun j hj => ?_⟩
      obtain ⟨b, hb, rfl⟩ := List.mem_map.1 hj
      rw [hsh, getD_lt _ _ (by simpa using hi), List.getElem_map]
      exact List.idxOf_lt_length_of_mem (h0 b hb)
    rw [Operator.sliceLoop, List.getElem?_eq_getElem hi, Option.bind_eq_bind, Option.bind_some, toRelativeIndices_eq, if_pos h0, Option.bind_eq_bind,
      Option.bind_some, htake, Option.bind_eq_bind, Option.bind_some]
    obtain ⟨s, s1, s2, s3, s4⟩ := ih ⟨⟨op.kernel.shape.set i (S.blades.map op.axes[i].blades.idxOf).length,
          fun idx => op.kernel.get (idx.set i ((S.blades.map op.axes[i].blades.idxOf).getD (idx.getD i 0) 0))⟩, op.axes.set i S⟩ (i + 1)
      (by simp [hsh, List.map_set]) (by simp at hl ⊢; omega) (by
        intro j hj
        have := hsub (j + 1) (by simpa using hj)
        rw [List.getD_cons_succ] at this
        simp only
        rw [List.getD_eq_getElem?_getD (l := op.axes.set i S), List.getElem?_set_ne (by omega), ← List.getD_eq_getElem?_getD,
          show i + 1 + j = i + (j + 1) by omega]
        exact this)
    have hax : s.axes = op.axes.take i ++ (S :: Ss) ++ op.axes.drop (i + (S :: Ss).length) := by
      rw [s2]
      simp only [List.length_cons]
      rw [List.take_add_one, List.take_set_of_le (Nat.le_refl i), List.drop_set_of_lt (by omega), List.getElem?_set_self hi]
      simp [Nat.add_assoc, Nat.add_comm 1]
    refine ⟨s, s1, hax, s3, fun bs hbs => ?_⟩
    rw [s4 bs hbs]
    simp only
    congr 1
    have hbl : bs.length = op.axes.length := by
      rw [hbs.length_eq, hax]
      simp at hl ⊢
      omega
    have hbi : bs.getD i 0 ∈ S.blades := by
      have hi' : i < s.axes.length := by rw [hax]; simp at hl ⊢; omega
      have := hbs.get (i := i) (by omega) hi'
      simp only [List.get_eq_getElem] at this
      rw [getD_lt _ _ (by omega)]
      convert this using 2
      simp only [hax]
      rw [List.getElem_append_left (by simp at hl ⊢; omega), List.getElem_append_right (by simp)]
      simp [Nat.min_eq_left hi.le]
    apply List.ext_getElem (by simp [idxs, hbl])
    intro m h1 h2
    have hm : m < op.axes.length := by simpa [idxs, hbl] using h2
    rw [List.getElem_set]
    by_cases hmi : i = m
    · subst hmi
      rw [if_pos rfl, idxs_getD (by simpa using hbl) (by simpa using hi)]
      rw [List.getD_eq_getElem?_getD (l := op.axes.set i S), List.getElem?_set_self hi, Option.getD_some,
        getD_lt _ _ (by simpa using List.idxOf_lt_length_of_mem hbi)]
      simp only [List.getElem_map, List.getElem_idxOf, idxs, List.getElem_zipWith]
      rw [getD_lt _ _ (by omega)]
    · rw [if_neg hmi]
      simp only [idxs, List.getElem_zipWith]
      rw [List.getElem_set_ne hmi]

theorem sliceLoop_some (Ss : List SubSpace) (op : Operator Int) (i : Nat) {s : Operator Int} (h : op.sliceLoop i Ss = some s)
    (hi : i ≤ op.axes.length) :
    i + Ss.length ≤ op.axes.length ∧ ∀ j < Ss.length, ∀ b ∈ (Ss.getD j ⟨[]⟩).blades, b ∈ (op.axes.getD (i + j) ⟨[]⟩).blades := by
  induction Ss generalizing op i with
  | nil => exact ⟨by simpa using hi, by simp⟩
  | cons S Ss ih =>
    rw [Operator.sliceLoop] at h
    cases ho : op.axes[i]? with
    | none => simp [ho] at h
    | some T =>
      obtain ⟨hi', hT⟩ := List.getElem?_eq_some_iff.1 ho
      rw [ho, Option.bind_eq_bind, Option.bind_some, toRelativeIndices_eq] at h
      by_cases hS : ∀ b ∈ S.blades, b ∈ T.blades
      · rw [if_pos hS, Option.bind_eq_bind, Option.bind_some] at h
        cases hk : op.kernel.take (S.blades.map T.blades.idxOf) i with
        | none => simp [hk] at h
        | some k =>
          rw [hk, Option.bind_eq_bind, Option.bind_some] at h
          obtain ⟨h1, h2⟩ := ih _ _ h (by simpa using hi')
          simp only [List.length_set] at h1
          refine ⟨by simp; omega, fun j hj => ?_⟩
          cases j with
          | zero =>
            rw [List.getD_cons_zero, Nat.add_zero, getD_lt _ _ hi', hT]
            exact hS
          | succ j =>
            have := h2 j (by simpa using hj)
            simp only at this
            rw [List.getD_eq_getElem?_getD (l := op.axes.set i S), List.getElem?_set_ne (by omega), ← List.getD_eq_getElem?_getD,
              show i + 1 + j = i + (j + 1) by omega] at this
            rwa [List.getD_cons_succ]
      · rw [if_neg hS] at h
        cases h

/-- The index lists used by `deslice`. -/
def desliceIdx (shape : List Nat) (old : List SubSpace) (i : Nat) (Ss : List SubSpace) : List (List Nat) :=
  Ss.mapIdx fun j S => S.blades.map fun b => if b ∈ (old.getD (i + j) ⟨[]⟩).blades then (old.getD (i + j) ⟨[]⟩).blades.idxOf b else shape.getD (i + j) 0

theorem desliceLoop_spec {K : Type} (shape : List Nat) (old : List SubSpace) (hsh : shape = old.map (·.blades.length)) (Ss : List SubSpace) (i : Nat)
    (hl : i + Ss.length = old.length) (k : Tensor K) (pre : List Nat) (hk : k.shape = pre ++ (shape.drop i).map (· + 1)) (hpre : pre.length = i) :
    ∃ k', desliceLoop shape old i Ss k = some k' ∧ k'.shape = pre ++ Ss.map (·.blades.length) ∧
      ∀ idx, k'.get idx = k.get (trIdx (desliceIdx shape old i Ss) i idx) := by
  induction Ss generalizing i k pre with
  | nil =>
    refine ⟨k, rfl, ?_, fun idx => by rw [desliceIdx, List.mapIdx_nil, trIdx_nil]⟩
    rw [hk, List.drop_eq_nil_of_le (by rw [hsh]; simp at hl ⊢; omega)]
    simp
  | cons S Ss ih =>
    have hi : i < old.length := by simp at hl; omega
    have hi' : i < shape.length := by rw [hsh]; simpa using hi
    have hnd : i < k.ndim := by rw [Tensor.ndim, hk]; simp; omega
    have hki : k.shape.getD i 0 = shape.getD i 0 + 1 := by
      rw [hk, List.getD_eq_getElem?_getD, List.getElem?_append_right (by omega), hpre, Nat.sub_self, List.drop_eq_getElem_cons hi', getD_lt _ _ hi']
      rfl
    have hsi : shape.getD i 0 = old[i].blades.length := by rw [hsh, getD_lt _ _ (by simpa using hi), List.getElem_map]
    let l := S.blades.map fun b => if b ∈ old[i].blades then old[i].blades.idxOf b else shape.getD i 0
    have htake : k.take l i = some ⟨k.shape.set i l.length, fun idx => k.get (idx.set i (l.getD (idx.getD i 0) 0))⟩ := by
      rw [Tensor.take, if_pos]
      refine ⟨hnd, fun j hj => ?_⟩
      obtain ⟨b, hb, rfl⟩ := List.mem_map.1 hj
      rw [hki]
      split
      · rename_i h
        rw [hsi]
        exact Nat.lt_succ_of_lt (List.idxOf_lt_length_of_mem h)
      · exact Nat.lt_succ_self _
    rw [desliceLoop, List.getElem?_eq_getElem hi, Option.bind_eq_bind, Option.bind_some]
    change ∃ k', (k.take l i).bind _ = some k' ∧ _
    rw [htake, Option.bind_some]
    obtain ⟨k', h1, h2, h3⟩ := ih (i + 1) (by simp at hl; omega) ⟨k.shape.set i l.length, fun idx => k.get (idx.set i (l.getD (idx.getD i 0) 0))⟩
      (pre ++ [S.blades.length]) (by
        simp only
        rw [hk, List.set_append_right _ _ (by omega), hpre, Nat.sub_self, List.drop_eq_getElem_cons hi', List.map_cons, List.set_cons_zero]
        simp [l]) (by simp [hpre])
    refine ⟨k', h1, by rw [h2]; simp, fun idx => ?_⟩
    rw [h3]
    simp only
    rw [trIdx_cons]
    congr 2
    rw [desliceIdx, desliceIdx, List.mapIdx_cons]
    have : ∀ j, i + 1 + j = i + (j + 1) := by omega
    simp only [this, Nat.add_zero, getD_lt old _ hi, l]

theorem deslice_kernel {op : Operator Int} (h : WfOp A op) {axes : List SubSpace} (hl : axes.length = op.axes.length) (hw : ∀ S ∈ axes, WfSub A S) :
    ∃ s, op.deslice axes = some s ∧ WfOp A s ∧ s.axes = axes ∧ ∀ bs, InAxes bs axes → kb s bs = kb op bs := by
  obtain ⟨k, k1, k2, k3⟩ := desliceLoop_spec op.kernel.shape op.axes h.shape axes 0 (by omega) op.kernel.pad1 [] (by simp [Tensor.pad1]) rfl
  refine ⟨⟨k, axes⟩, by rw [Operator.deslice, k1]; rfl, ⟨?_, by simpa using k2, hw⟩, rfl, fun bs hbs => ?_⟩
  · have := h.ne
    intro h0
    replace h0 : axes = [] := h0
    rw [h0] at hl
    exact this (List.length_eq_zero_iff.1 hl.symm)
  · rw [kb, if_pos (by exact hbs), kb]
    simp only
    rw [k3, Tensor.pad1]
    simp only
    have hbl := hbs.length_eq
    have hil : (idxs axes bs).length = axes.length := idxs_length hbl
    have key : ∀ m < axes.length, (trIdx (desliceIdx op.kernel.shape op.axes 0 axes) 0 (idxs axes bs)).getD m 0 =
        if bs.getD m 0 ∈ (op.axes.getD m ⟨[]⟩).blades then (op.axes.getD m ⟨[]⟩).blades.idxOf (bs.getD m 0) else op.kernel.shape.getD m 0 := by
      intro m hm
      have hbm : bs.getD m 0 ∈ (axes.getD m ⟨[]⟩).blades := by
        have := hbs.get (i := m) (by omega) hm
        rwa [getD_lt _ _ hm, getD_lt _ _ (by omega)]
      rw [getD_lt _ _ (by rw [trIdx_length, hil]; exact hm)]
      simp only [trIdx, List.getElem_map, List.getElem_range, Nat.not_lt_zero, if_false, Nat.sub_zero, desliceIdx, List.getElem?_mapIdx,
        List.getElem?_eq_getElem hm, Option.map_some, Nat.zero_add]
      rw [idxs_getD hbl hm, getD_lt (l := axes) _ hm]
      rw [getD_lt (l := axes) _ hm] at hbm
      rw [getD_lt _ _ (by simpa using List.idxOf_lt_length_of_mem hbm)]
      simp only [List.getElem_map, List.getElem_idxOf]
    have hv : List.Forall₂ (· < ·) (trIdx (desliceIdx op.kernel.shape op.axes 0 axes) 0 (idxs axes bs)) op.kernel.shape ↔ InAxes bs op.axes := by
      change Valid _ _ ↔ _
      rw [valid_iff, trIdx_length, hil, h.shape, List.length_map, InAxes, List.forall₂_iff_get]
      simp only [List.get_eq_getElem]
      constructor
      · rintro ⟨h1, h2⟩
        refine ⟨by omega, fun m hm1 hm2 => ?_⟩
        have := h2 m hm2
        rw [← h.shape, key m (by omega), getD_lt _ _ hm2, getD_lt _ _ hm1, h.shape, getD_lt _ _ (by simpa using hm2), List.getElem_map] at this
        by_contra hc
        rw [if_neg hc] at this
        omega
      · rintro ⟨h1, h2⟩
        refine ⟨by omega, fun m hm => ?_⟩
        have hb := h2 m (by omega) hm
        rw [← h.shape, key m (by omega), getD_lt _ _ hm, getD_lt _ _ (by omega), if_pos hb, h.shape, getD_lt _ _ (by simpa using hm), List.getElem_map]
        exact List.idxOf_lt_length_of_mem hb
    by_cases hin : InAxes bs op.axes
    · rw [if_pos hin, if_pos (hv.2 hin)]
      congr 1
      apply List.ext_getElem
      · rw [trIdx_length, hil, idxs_length hin.length_eq, hl]
      · intro m h1 h2
        have hm : m < axes.length := by rw [trIdx_length, hil] at h1; exact h1
        have := key m hm
        rw [getD_lt _ _ h1] at this
        have hb := hin.get (i := m) (by omega) (by omega)
        simp only [List.get_eq_getElem] at hb
        rw [this, getD_lt _ _ (by omega), getD_lt _ _ (by omega), if_pos hb]
        simp [idxs]
    · rw [if_neg hin, if_neg fun h => hin (hv.1 h)]

end Verif
