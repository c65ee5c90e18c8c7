import Verif.Proofs.Batch
/-! # Operators called with arrays of multivectors -/
namespace Verif
open Model Spec
variable {R : Type} [CommRing R] {A : Alg}

theorem at_length (x : BMV R) (b : List Nat) : (x.at b).vals.length = x.sub.blades.length := by simp [BMV.at]

theorem same_at {x : BMV R} {S : SubSpace} (h : FitsB x S) {b : List Nat} (hb : b.length = x.shape.length) :
    Same (vecTensor (x.at b).vals) (x.vals.lead b) := by
  have hs : (vecTensor (x.at b).vals).shape = [x.sub.blades.length] := by simp [vecTensor, at_length]
  refine ⟨?_, fun i hi => ?_⟩
  · rw [hs, Tensor.lead, h.2]
    simp only
    rw [List.drop_left' hb.symm, h.1]
  · rw [hs] at hi
    cases hi with
    | cons h1 h2 =>
      cases h2
      simp [vecTensor, BMV.at, Tensor.lead, h1]

theorem Same.symm {a b : Tensor R} (h : Same a b) : Same b a := ⟨h.1.symm, fun i hi => (h.2 i (by rw [h.1]; exact hi)).symm⟩
theorem Same.trans {a b c : Tensor R} (h : Same a b) (h' : Same b c) : Same a c :=
  ⟨h.1.trans h'.1, fun i hi => (h.2 i hi).trans (h'.2 i (by rw [← h.1]; exact hi))⟩

theorem Spec.WfBOp.at {op : Operator R} (h : WfBOp A op) {b : List Nat} (hb : b.length = op.batch.length) : WfOp A (op.at b) := by
  refine ⟨h.ne, ?_, h.sub⟩
  rw [Operator.at, Tensor.lead, h.shape]
  simp only
  rw [List.drop_left' hb.symm]

theorem axes_length {op : Operator R} (h : op.axes ≠ []) : op.axes.length = op.arity + 1 := by
  have := List.length_pos_iff.2 h
  rw [Operator.arity, Operator.inputs, List.length_dropLast]
  omega

theorem wfBOp_of {op : Operator R} (h : WfOp A op) : WfBOp A op ∧ op.batch = [] := by
  have hb : op.batch = [] := by
    rw [Operator.batch, Tensor.ndim, h.shape, List.length_map, axes_length h.ne]; simp
  exact ⟨⟨h.ne, by rw [hb]; exact h.shape, h.sub⟩, hb⟩

theorem lead_nil (t : Tensor R) : t.lead [] = t := by cases t; rfl

theorem einsumB_keys {op : Operator R} (h : WfBOp A op) (h2 : op.arity ≤ 25) {keys : List Nat} (hn : keys.Nodup) (hlt : ∀ c ∈ keys, c < op.arity)
    (hne : keys ≠ []) {x : Nat → BMV R} (hx : ∀ c ∈ keys, FitsB (x c) (op.inputs.getD c ⟨[]⟩)) :
    ∃ e, precomputeEinsumPartial op.arity keys = some e ∧
      (broadcastShapes (op.batch :: keys.map fun c => (x c).shape) = none → einsumB e (op.kernel :: keys.map fun c => (x c).vals) = none) ∧
      ∀ B, Common (op.batch :: keys.map fun c => (x c).shape) B →
      ∃ T, einsumB e (op.kernel :: keys.map fun c => (x c).vals) = some T ∧
        T.shape = B ++ ((((List.range op.arity).filter fun c => ! keys.contains c).map fun c => (op.inputs.getD c ⟨[]⟩).blades.length) ++ [op.output.blades.length]) ∧
        ∀ b, b.length = B.length → ∃ t, einsum e (op.kernel.lead (bcIdx op.batch b) :: keys.map fun c => vecTensor ((x c).at (bcIdx (x c).shape b)).vals) = some t ∧
          Same t (T.lead b) := by
  obtain ⟨e, he⟩ : ∃ e, precomputeEinsumPartial op.arity keys = some e := by
    rw [precomputeEinsumPartial, if_pos ⟨by omega, fun c hc => by have := hlt c hc; omega⟩]; exact ⟨_, rfl⟩
  have hterms : e.terms = List.range (op.arity + 1) :: keys.map fun c => [c] := by
    rw [precomputeEinsumPartial, if_pos ⟨by omega, fun c hc => by have := hlt c hc; omega⟩, if_neg hne] at he
    cases he; rfl
  have hlab : ∀ c ∈ e.terms.flatten, c < 26 := by
    intro c hc
    rw [hterms] at hc
    simp only [List.flatten_cons, List.mem_append, List.mem_range, List.mem_flatten, List.mem_map] at hc
    rcases hc with hc | ⟨l, ⟨d, hd, rfl⟩, hc⟩
    · omega
    · have := hlt d hd; simp at hc; omega
  have hnd : op.kernel.ndim = op.batch.length + (op.arity + 1) := by
    rw [Tensor.ndim, h.shape, List.length_append, List.length_map, axes_length h.ne]
  have hzip : e.terms.zip (op.kernel :: keys.map fun c => (x c).vals) = (List.range (op.arity + 1), op.kernel) :: keys.map fun c => ([c], (x c).vals) := by
    rw [hterms, List.zip_cons_cons, List.zip_map', ]
  have hlead : ((e.terms.zip (op.kernel :: keys.map fun c => (x c).vals)).map fun p => p.2.shape.take (p.2.ndim - p.1.length)) = op.batch :: keys.map fun c => (x c).shape := by
    rw [hzip, List.map_cons, List.map_map]
    congr 1
    · simp [Operator.batch]
    · apply List.map_congr_left
      intro c hc
      simp only [Function.comp, List.length_singleton, BMV.shape, List.dropLast_eq_take, Tensor.ndim]
  have hat : ∀ b, ((e.terms.zip (op.kernel :: keys.map fun c => (x c).vals)).map fun p => p.2.lead (bcIdx (p.2.shape.take (p.2.ndim - p.1.length)) b)) =
      op.kernel.lead (bcIdx op.batch b) :: keys.map fun c => (x c).vals.lead (bcIdx (x c).shape b) := by
    intro b
    rw [hzip, List.map_cons, List.map_map]
    congr 1
    · simp [Operator.batch]
    · apply List.map_congr_left
      intro c hc
      simp only [Function.comp, List.length_singleton, BMV.shape, List.dropLast_eq_take, Tensor.ndim]
  refine ⟨e, he, fun hB => einsumB_none (by rw [hlead]; exact hB), fun B hB => ?_⟩
  have hl : ∀ b : List Nat, b.length = B.length → (bcIdx op.batch b).length = op.batch.length ∧ ∀ c ∈ keys, (bcIdx (x c).shape b).length = (x c).shape.length := by
    intro b hb
    refine ⟨(bcIdx_readAt (by rw [hb]; exact (hB.1 _ (by simp)).1)).1, fun c hc => (bcIdx_readAt (by
      rw [hb]
      exact (hB.1 (x c).shape (by simp only [List.mem_cons, List.mem_map]; exact .inr ⟨c, hc, rfl⟩)).1)).1⟩
  have hslice : ∀ b : List Nat, b.length = B.length → List.Forall₂ Same
      (op.kernel.lead (bcIdx op.batch b) :: keys.map fun c => vecTensor ((x c).at (bcIdx (x c).shape b)).vals)
      (op.kernel.lead (bcIdx op.batch b) :: keys.map fun c => (x c).vals.lead (bcIdx (x c).shape b)) := by
    intro b hb
    refine .cons (.refl _) ?_
    rw [List.forall₂_map_left_iff, List.forall₂_map_right_iff, List.forall₂_same]
    exact fun c hc => same_at (hx c hc) ((hl b hb).2 c hc)
  have hone : ∀ b : List Nat, b.length = B.length → ∃ t, einsum e (op.kernel.lead (bcIdx op.batch b) :: keys.map fun c => vecTensor ((x c).at (bcIdx (x c).shape b)).vals) = some t ∧
      t.shape = (((List.range op.arity).filter fun c => ! keys.contains c).map fun c => (op.inputs.getD c ⟨[]⟩).blades.length) ++ [op.output.blades.length] := by
    intro b hb
    have hw := h.at (hl b hb).1
    obtain ⟨e', t, e1, t1, t2, -⟩ := einsum_partial (k := (op.at (bcIdx op.batch b)).kernel) (a := op.arity) (keys := keys) h2 (shape_length hw) hn hlt hne
      (fun c => ((x c).at (bcIdx (x c).shape b)).vals) (fun c hc => by rw [at_length, (hx c hc).1]; exact (sz_eq hw (hlt c hc)).symm)
    rw [he] at e1; cases e1
    refine ⟨t, t1, t2.trans ?_⟩
    congr 1
    · apply List.map_congr_left
      intro c hc
      exact sz_eq hw (List.mem_range.1 (List.mem_filter.1 hc).1)
    · exact congrArg (fun a => [a]) (sz_out hw)
  obtain ⟨T, T1, T2, T3⟩ := einsumB_eq (e := e) (ops := op.kernel :: keys.map fun c => (x c).vals) (by rw [hterms]; simp)
    (by
      rw [hzip]
      intro p hp
      rcases List.mem_cons.1 hp with rfl | hp
      · simp [hnd]
      · obtain ⟨c, hc, rfl⟩ := List.mem_map.1 hp
        simp [Tensor.ndim, (hx c hc).2])
    (B := B) (by rw [hlead]; exact hB) (by
      obtain ⟨t, t1, t2⟩ := hone (B.map fun _ => 0) (by simp)
      obtain ⟨t', u1, u2⟩ := einsum_same hlab (hslice (B.map fun _ => 0) (by simp)) t1
      exact ⟨B.map fun _ => 0, by simp, t', by rw [hat]; exact u1, u2.1.symm.trans t2⟩)
  refine ⟨T, T1, T2, fun b hb => ?_⟩
  obtain ⟨t, t1, t2⟩ := hone b hb
  obtain ⟨t', u1, u2⟩ := einsum_same hlab (hslice b hb) t1
  obtain ⟨t'', v1, v2, v3⟩ := T3 b hb
  rw [hat, u1] at v1
  cases v1
  refine ⟨t, t1, u2.trans ⟨?_, fun i _ => (v3 i).symm⟩⟩
  rw [Tensor.lead, T2]
  simp only
  rw [List.drop_left' hb.symm, v2]

theorem fitsB_args {op : Operator R} {args : List (BMV R)} (hx : List.Forall₂ FitsB args op.inputs) :
    args.length = op.arity ∧ ∀ c < op.arity, FitsB (args.getD c ⟨⟨[]⟩, ⟨[], fun _ => 0⟩⟩) (op.inputs.getD c ⟨[]⟩) := by
  have hl : args.length = op.arity := hx.length_eq
  refine ⟨hl, fun c hc => ?_⟩
  rw [getD_lt _ _ (by omega), getD_lt _ _ hc]
  exact (List.forall₂_iff_get.1 hx).2 c (by omega) hc

theorem slices_fit {op : Operator R} {args : List (BMV R)} (hx : List.Forall₂ FitsB args op.inputs) (f : BMV R → List Nat) :
    (args.map fun x => x.at (f x)).map (·.vals.length) = op.inputs.map (·.blades.length) := by
  rw [List.map_map]
  have : ∀ {args : List (BMV R)} {l : List SubSpace}, List.Forall₂ FitsB args l → args.map ((fun x : MV R => x.vals.length) ∘ fun x => x.at (f x)) = l.map (·.blades.length) := by
    intro args l h
    induction h with
    | nil => rfl
    | cons h _ ih => rw [List.map_cons, List.map_cons, ih]; simp [at_length, h.1]
  exact this hx

/-- Einsum on arrays, with any kernel. -/
theorem einsumCallB_eq {op : Operator R} (h : WfBOp A op) (h1 : 1 ≤ op.arity) (h2 : op.arity ≤ 25) {args : List (BMV R)}
    (hx : List.Forall₂ FitsB args op.inputs) :
    (broadcastShapes (op.batch :: args.map BMV.shape) = none → einsumCallB op args = none ∧ einsumCallJB op args = none) ∧
    ∀ B, Common (op.batch :: args.map BMV.shape) B → ∃ z, einsumCallB op args = some z ∧ einsumCallJB op args = some z ∧ z.sub = op.output ∧
      z.vals.shape = B ++ [op.output.blades.length] ∧
      ∀ b, b.length = B.length → einsumCallMV (op.at (bcIdx op.batch b)) (args.map fun x => x.at (bcIdx x.shape b)) = some (z.at b) := by
  obtain ⟨hal, hxi⟩ := fitsB_args hx
  have hargs : (List.range op.arity).map (fun c => args.getD c ⟨⟨[]⟩, ⟨[], fun _ => 0⟩⟩) = args := by rw [← hal]; exact map_getD_range args _
  have hm : ∀ {β : Type} (f : BMV R → β), (List.range op.arity).map (fun c => f (args.getD c ⟨⟨[]⟩, ⟨[], fun _ => 0⟩⟩)) = args.map f := by
    intro β f; conv_rhs => rw [← hargs, List.map_map]
    rfl
  obtain ⟨e, e1, e2, e3⟩ := einsumB_keys h h2 (keys := List.range op.arity) List.nodup_range (fun c hc => List.mem_range.1 hc)
    (by intro h0; have := congrArg List.length h0; simp at this; omega) (x := fun c => args.getD c ⟨⟨[]⟩, ⟨[], fun _ => 0⟩⟩) (fun c hc => hxi c (List.mem_range.1 hc))
  rw [hm BMV.shape, hm (·.vals)] at e2 e3
  constructor
  · intro hB
    constructor
    · rw [einsumCallB, e1, broadcastAllocate, hB]; rfl
    · rw [einsumCallJB, e1, Option.bind_eq_bind, Option.bind_some, e2 hB]; rfl
  · intro B hB
    obtain ⟨T, T1, T2, T3⟩ := e3 B hB
    have hfil : ((List.range op.arity).filter fun c => ! (List.range op.arity).contains c) = [] := by
      rw [List.filter_eq_nil_iff]; intro c hc; simpa using hc
    rw [hfil, List.map_nil, List.nil_append] at T2
    have hcon : BMV.construct T op.output = some ⟨op.output, T⟩ := by rw [BMV.construct, if_pos (by rw [T2]; simp)]
    refine ⟨⟨op.output, T⟩, ?_, ?_, rfl, T2, fun b hb => ?_⟩
    · have hall : broadcastAllocate op args = some ⟨op.output, Tensor.zeros (B ++ [op.output.blades.length])⟩ := by
        rw [broadcastAllocate, broadcastShapes_iff.2 hB, Option.bind_eq_bind, Option.bind_some, BMV.construct, if_pos (by simp [Tensor.zeros])]
      rw [einsumCallB, e1, Option.bind_eq_bind, Option.bind_some, hall, Option.bind_eq_bind, Option.bind_some, T1, Option.bind_eq_bind, Option.bind_some, if_pos (by rw [T2]; rfl), hcon]
    · rw [einsumCallJB, e1, Option.bind_eq_bind, Option.bind_some, T1, Option.bind_eq_bind, Option.bind_some, hcon]
    · obtain ⟨t, t1, t2⟩ := T3 b hb
      rw [hm (fun x => vecTensor (x.at (bcIdx x.shape b)).vals)] at t1
      have hts : t.shape = [op.output.blades.length] := by
        rw [t2.1, Tensor.lead, T2]; simp only; rw [List.drop_left' hb.symm]
      have hv : ((List.range op.output.blades.length).map fun o => t.get [o]) = ((⟨op.output, T⟩ : BMV R).at b).vals := by
        rw [BMV.at]
        apply List.map_congr_left
        intro o ho
        exact t2.2 [o] (by rw [hts]; exact .cons (List.mem_range.1 ho) .nil)
      have hm2 : ((args.map fun x => x.at (bcIdx x.shape b)).map (·.vals)).map vecTensor = args.map fun x => vecTensor (x.at (bcIdx x.shape b)).vals := by
        rw [List.map_map, List.map_map]; rfl
      rw [einsumCallMV, einsumCall]
      change ((do let e ← precomputeEinsumPartial op.arity (List.range op.arity); let t ← einsum e (op.kernel.lead (bcIdx op.batch b) :: _)
                  if t.shape = [op.output.blades.length] then some ((List.range op.output.blades.length).map fun o => t.get [o]) else none) >>= fun v => MV.construct v op.output) = _
      rw [e1, hm2, Option.bind_eq_bind, Option.bind_eq_bind, Option.bind_some, t1, Option.bind_eq_bind, Option.bind_some, if_pos hts, Option.bind_some, hv, MV.construct,
        if_pos (by simp [at_length])]
      rfl

/-! ### sparse execution -/

theorem component_holds {x : BMV R} {S : SubSpace} (h : FitsB x S) {B : List Nat} (hr : Repeats x.shape B) {i : Nat} (hi : i < S.blades.length) :
    ∃ T, x.vals.component i = some T ∧ Holds T B fun b => (x.at (bcIdx x.shape b)).vals.getD i 0 := by
  refine ⟨⟨x.vals.shape.dropLast, fun b => x.vals.get (b ++ [i])⟩, ?_, hr, fun b hb => ?_⟩
  · rw [Tensor.component, if_pos (by rw [h.2]; simpa using hi)]
  · show x.vals.get (bcIdx x.shape b ++ [i]) = _
    simp [BMV.at, h.1, hi]

theorem termFold_holds {B : List Nat} {args : List (BMV R)} {ins : List SubSpace} (hx : List.Forall₂ FitsB args ins) (hr : ∀ x ∈ args, Repeats x.shape B)
    {idx : List Nat} (hi : Valid idx (ins.map (·.blades.length))) {acc : Tensor R} {v : List Nat → R} (ha : Holds acc B v) :
    ∃ T, ((args.map (·.vals)).zip idx).foldlM (fun acc p => do Tensor.bin (· * ·) acc (← p.1.component p.2)) acc = some T ∧
      Holds T B fun b => v b * prodAt ((args.map fun x => x.at (bcIdx x.shape b)).map (·.vals)) idx := by
  induction hx generalizing idx acc v with
  | nil => cases hi; exact ⟨acc, rfl, ha.congr fun b _ => by simp⟩
  | @cons x S args ins hf hrest ih =>
    cases hi with
    | @cons i _ idx _ h1 h2 =>
      obtain ⟨C, C1, C2⟩ := component_holds hf (hr x (by simp)) h1
      obtain ⟨U, U1, -, U2⟩ := ha.bin (· * ·) C2
      obtain ⟨T, T1, T2⟩ := ih (fun y hy => hr y (by simp [hy])) h2 U2
      refine ⟨T, ?_, T2.congr fun b _ => ?_⟩
      · rw [List.map_cons, List.zip_cons_cons, List.foldlM_cons]
        simp only [C1, Option.bind_eq_bind, Option.bind_some, U1]
        exact T1
      · simp only [List.map_cons]
        rw [prodAt_cons, mul_assoc]

theorem termProdB_holds {B : List Nat} {args : List (BMV R)} {ins : List SubSpace} (hx : List.Forall₂ FitsB args ins) (hr : ∀ x ∈ args, Repeats x.shape B)
    {idx : List Nat} (hi : Valid idx (ins.map (·.blades.length))) (s : Int) :
    ∃ T, termProdB (args.map (·.vals)) idx s = some T ∧ Holds T B fun b => (s : R) * prodAt ((args.map fun x => x.at (bcIdx x.shape b)).map (·.vals)) idx :=
  termFold_holds hx hr hi ⟨Repeats.nil _, fun _ _ => rfl⟩

theorem rowSumB_holds {B : List Nat} {f : List Nat → Int → Option (Tensor R)} {g : List Nat × Int → List Nat → R} (terms : List (List Nat × Int))
    (h : ∀ t ∈ terms, ∃ T, f t.1 t.2 = some T ∧ Holds T B (g t)) :
    ∃ T, rowSumB f terms = some T ∧ Holds T B fun b => (terms.map fun t => g t b).sum := by
  have key : ∀ (acc : Tensor R) (v : List Nat → R), Holds acc B v →
      ∃ T, terms.foldlM (fun acc t => do Tensor.bin (· + ·) acc (← f t.1 t.2)) acc = some T ∧ Holds T B fun b => v b + (terms.map fun t => g t b).sum := by
    induction terms with
    | nil => intro acc v ha; exact ⟨acc, rfl, ha.congr fun b _ => by simp⟩
    | cons t terms ih =>
      intro acc v ha
      obtain ⟨C, C1, C2⟩ := h t (by simp)
      obtain ⟨U, U1, -, U2⟩ := ha.bin (· + ·) C2
      obtain ⟨T, T1, T2⟩ := ih (fun t ht => h t (by simp [ht])) U _ U2
      refine ⟨T, ?_, T2.congr fun b _ => ?_⟩
      · rw [List.foldlM_cons]
        simp only [C1, Option.bind_eq_bind, Option.bind_some, U1]
        exact T1
      · simp [add_assoc]
  obtain ⟨T, T1, T2⟩ := key ⟨[], fun _ => 0⟩ (fun _ => 0) ⟨Repeats.nil _, fun _ _ => rfl⟩
  exact ⟨T, T1, T2.congr fun b _ => by simp⟩

theorem fillRowsB_eq {B : List Nat} {n : Nat} {f : List Nat → Int → Option (Tensor R)} {V : List Nat → Nat → R} (rows : List (Nat × List (List Nat × Int)))
    (h : ∀ p ∈ rows, p.1 < n ∧ ∃ T, rowSumB f p.2 = some T ∧ Holds T B fun b => V b p.1) (out : Tensor R) (ho : out.shape = B ++ [n]) :
    ∃ out', fillRowsB f rows out = some out' ∧ out'.shape = B ++ [n] ∧
      ∀ b j, Valid b B → out'.get (b ++ [j]) = if j ∈ rows.map (·.1) then V b j else out.get (b ++ [j]) := by
  induction rows generalizing out with
  | nil => exact ⟨out, rfl, ho, by simp⟩
  | cons p rows ih =>
    obtain ⟨hp, T, T1, T2⟩ := h p (by simp)
    obtain ⟨out', o1, o2, o3⟩ := ih (fun q hq => h q (by simp [hq]))
      ⟨out.shape, fun idx => if idx.getLastD 0 = p.1 then T.get (bcIdx T.shape idx.dropLast) else out.get idx⟩ ho
    refine ⟨out', ?_, o2, fun b j hb => ?_⟩
    · have hset : out.setComponent p.1 T = some ⟨out.shape, fun idx => if idx.getLastD 0 = p.1 then T.get (bcIdx T.shape idx.dropLast) else out.get idx⟩ := by
        rw [Tensor.setComponent, if_pos]
        rw [ho]
        simp only [List.getLastD_concat, List.dropLast_concat]
        exact ⟨hp, common_pair T2.1⟩
      rw [fillRowsB, List.foldlM_cons]
      simp only [T1, Option.bind_eq_bind, Option.bind_some, hset]
      exact o1
    · rw [o3 b j hb]
      simp only [List.map_cons, List.mem_cons, List.getLastD_concat, List.dropLast_concat]
      by_cases hj : j ∈ rows.map (·.1)
      · simp only [hj, or_true, if_true]
      · simp only [hj, or_false, if_false]
        split
        · rename_i hjp
          rw [hjp, T2.2 b hb]
        · rfl

theorem sparseB_eq {op : Operator Int} (h : WfOp A op) {args : List (BMV R)} (hx : List.Forall₂ FitsB args op.inputs) {B : List Nat}
    (hr : ∀ x ∈ args, Repeats x.shape B) {f : List Nat → Int → Option (Tensor R)}
    (hf : ∀ idx s, Valid idx (op.inputs.map (·.blades.length)) →
      ∃ T, f idx s = some T ∧ Holds T B fun b => (s : R) * prodAt ((args.map fun x => x.at (bcIdx x.shape b)).map (·.vals)) idx) :
    ∃ out, fillRowsB f (precomputeSparse op) (Tensor.zeros (B ++ [op.output.blades.length])) = some out ∧ out.shape = B ++ [op.output.blades.length] ∧
      ∀ b o, Valid b B → o < op.output.blades.length →
        out.get (b ++ [o]) = (op.cast R).evalAt ((args.map fun x => x.at (bcIdx x.shape b)).map (·.vals)) o := by
  obtain ⟨out, o1, o2, o3⟩ := fillRowsB_eq (B := B) (n := op.output.blades.length) (f := f)
    (V := fun b o => (op.cast R).evalAt ((args.map fun x => x.at (bcIdx x.shape b)).map (·.vals)) o) (precomputeSparse op) (by
      intro p hp
      obtain ⟨h1, -, hp⟩ := mem_sparse.1 hp
      refine ⟨by rwa [h.shape_out] at h1, ?_⟩
      obtain ⟨T, T1, T2⟩ := rowSumB_holds (B := B) (f := f) (g := fun t b => ((t.2 : Int) : R) * prodAt ((args.map fun x => x.at (bcIdx x.shape b)).map (·.vals)) t.1) p.2 (by
        intro t ht
        rw [hp] at ht
        obtain ⟨i, hi, rfl⟩ := List.mem_map.1 ht
        exact hf _ _ (by rw [← h.shape_in]; exact (mem_allIdx _ _).1 (List.mem_filter.1 hi).1))
      refine ⟨T, T1, T2.congr fun b _ => ?_⟩
      rw [hp, sum_nonzero]
      ) (Tensor.zeros (B ++ [op.output.blades.length])) rfl
  refine ⟨out, o1, o2, fun b o hb ho => ?_⟩
  rw [o3 b o hb]
  split
  · rfl
  · rename_i hn
    rw [evalAt_unwritten]
    · rfl
    · intro hw
      apply hn
      exact List.mem_map.2 ⟨(o, ((allIdx op.kernel.shape.dropLast).filter fun ii => op.kernel.get (ii ++ [o]) != 0).map fun ii => (ii, op.kernel.get (ii ++ [o]))),
        mem_sparse.2 ⟨by rw [h.shape_out]; exact ho, hw, rfl⟩, rfl⟩

end Verif
