import Verif.Proofs.Symmetry
import Verif.Model.OperatorFactory
/-! # What operators compute, as functions on the Clifford algebra -/
namespace Verif
open Model Spec

/-- Functions on lists of Clifford elements, over every coefficient ring. -/
abbrev Fn (A : Alg) := ∀ (R : Type) [CommRing R], List (Cl A R) → Cl A R
/-- Conditions on lists of Clifford elements. -/
abbrev Cond (A : Alg) := ∀ (R : Type) [CommRing R], List (Cl A R) → Prop

/-- No condition. -/
def Cond.triv (A : Alg) : Cond A := fun _ _ _ => True

/-- The elements denoted by a list of coefficient lists. -/
def den (A : Alg) (R : Type) [CommRing R] (ins : List SubSpace) (xs : List (List R)) : List (Cl A R) :=
  List.zipWith (denote A R) ins xs

/-- The operator computes `F` on inputs satisfying `C`. -/
def Computes (A : Alg) (op : Operator Int) (C : Cond A) (F : Fn A) : Prop :=
  ∀ (R : Type) [CommRing R] (xs : List (List R)), Fits xs op.inputs → C R (den A R op.inputs xs) →
    denote A R op.output (op.apply R xs) = F R (den A R op.inputs xs)

/-- A call succeeds with an operator on the given inputs that computes `F`. -/
def Sem (A : Alg) (r : Option (Operator Int)) (ins : List SubSpace) (C : Cond A) (F : Fn A) : Prop :=
  ∃ op, r = some op ∧ WfOp A op ∧ op.inputs = ins ∧ Computes A op C F

/-- An argument computes `F`. -/
def ArgSem (A : Alg) (a : Arg Int) (ins : List SubSpace) (C : Cond A) (F : Fn A) : Prop :=
  WfArg A a ∧ Arg.ins a = ins ∧ ∀ (R : Type) [CommRing R] (xs : List (List R)), Fits xs ins → C R (den A R ins xs) →
    denote A R a.subspace (Arg.app R a xs) = F R (den A R ins xs)

variable {A : Alg}

theorem Sem.congr {r : Option (Operator Int)} {ins : List SubSpace} {C C' : Cond A} {F F' : Fn A}
    (h : Sem A r ins C F)
    (he : ∀ (R : Type) [CommRing R] (ds : List (Cl A R)), ds.length = ins.length → C' R ds → C R ds ∧ F R ds = F' R ds) :
    Sem A r ins C' F' := by
  obtain ⟨op, h1, h2, h3, h4⟩ := h
  refine ⟨op, h1, h2, h3, ?_⟩
  intro R _ xs hx hC
  have hl : (den A R op.inputs xs).length = ins.length := by
    rw [← h3]; simp [den, Fits.length hx]
  have := he R _ hl hC
  rw [h4 R xs hx this.1, this.2]

theorem Sem.arg {op : Operator Int} {ins : List SubSpace} {C : Cond A} {F : Fn A}
    (h : Sem A (some op) ins C F) : ArgSem A (.op op) ins C F := by
  obtain ⟨op', h1, h2, h3, h4⟩ := h
  cases h1
  refine ⟨h2, h3, ?_⟩
  subst h3
  exact h4

theorem Sem.bind_arg {r : Option (Operator Int)} {ins : List SubSpace} {C : Cond A} {F : Fn A} (h : Sem A r ins C F)
    {ins' : List SubSpace} {C' : Cond A} {F' : Fn A} {k : Operator Int → Option (Operator Int)}
    (hk : ∀ op, r = some op → ArgSem A (.op op) ins C F → Sem A (k op) ins' C' F') : Sem A (r.bind k) ins' C' F' := by
  have h' := h
  obtain ⟨op, h1, _⟩ := h'
  rw [h1, Option.bind_some]
  exact hk op h1 (by rw [h1] at h; exact h.arg)

theorem argSem_sub {S : SubSpace} (hS : WfSub A S) :
    ArgSem A (.sub S) [S] (Cond.triv A) (fun _ _ ds => ds.headD 0) := by
  refine ⟨hS, rfl, ?_⟩
  intro R _ xs hx _
  cases hx with
  | cons h h' =>
    cases h'
    rfl

/-- Lemma to move between `Option` do-notation and `bind`. -/
theorem Sem.squeeze (hA : WfAlg A) {r : Option (Operator Int)} {ins : List SubSpace} {C : Cond A} {F : Fn A}
    (h : Sem A r ins C F) : Sem A (r.bind (·.squeeze A)) ins C F := by
  obtain ⟨op, h1, h2, h3, h4⟩ := h
  obtain ⟨s, s1, s2, s3, _, _, s6⟩ := squeeze_spec hA h2
  refine ⟨s, by rw [h1, Option.bind_some, s1], s2, by rw [s3, h3], ?_⟩
  intro R _ xs hx hC
  rw [s3] at hx hC ⊢
  rw [s6, h4 R xs hx hC]

theorem den_append {R : Type} [CommRing R] {I J : List SubSpace} {xs ys : List (List R)} (h : xs.length = I.length) :
    den A R (I ++ J) (xs ++ ys) = den A R I xs ++ den A R J ys := by
  rw [den, List.zipWith_append (by omega)]; rfl

theorem Fits.split {R : Type} [CommRing R] {I J : List SubSpace} {xs : List (List R)} (h : Fits xs (I ++ J)) :
    Fits (xs.take I.length) I ∧ Fits (xs.drop I.length) J ∧ xs = xs.take I.length ++ xs.drop I.length := by
  have e1 := List.forall₂_take I.length h
  have e2 := List.forall₂_drop I.length h
  simp only [List.take_left, List.drop_left] at e1 e2
  exact ⟨e1, e2, (List.take_append_drop _ _).symm⟩

theorem den_length {R : Type} [CommRing R] {I : List SubSpace} {xs : List (List R)} (h : Fits xs I) :
    (den A R I xs).length = I.length := by simp [den, Fits.length h]

theorem app_length {R : Type} [CommRing R] {a : Arg Int} (ha : WfArg A a) {xs : List (List R)} (hx : Fits xs (Arg.ins a)) :
    (Arg.app R a xs).length = a.subspace.blades.length := by
  cases a with
  | sub S =>
    cases hx with
    | cons h h' => exact h
  | op O => exact apply_length R ha xs

theorem Sem.build1 {B : Operator Int} (hB : WfOp A B) {a : Arg Int} {O : SubSpace} (hax : B.axes = [a.subspace, O])
    {FB : Fn A} (hFB : Computes A B (Cond.triv A) FB) {I : List SubSpace} {C : Cond A} {F : Fn A}
    (ha : ArgSem A a I C F) :
    Sem A (B.build_ [a]) I C (fun R _ ds => FB R [F R ds]) := by
  obtain ⟨ha1, rfl, ha3⟩ := ha
  obtain ⟨h, h1, h2, h3, h4⟩ := build_apply [a] (by simpa using ha1) B hB (Q := []) (O := O) (by simpa using hax)
  have hin : h.inputs = Arg.ins a := by simp [Operator.inputs, h3]
  have hout : h.output = B.output := by simp [Operator.output, h3, hax]
  have hBin : B.inputs = [a.subspace] := by simp [Operator.inputs, hax]
  refine ⟨h, h1, h2, hin, ?_⟩
  intro R _ xs hx hC
  rw [hin] at hx hC ⊢
  have e := h4 R [xs] [] (by simp [Fits.length hx]) rfl
  simp only [List.flatten_cons, List.flatten_nil, List.append_nil, List.zipWith_cons_cons, List.zipWith_nil_left] at e
  rw [hout, e, hFB R _ (by rw [hBin]; exact List.Forall₂.cons (app_length ha1 hx) List.Forall₂.nil) trivial, hBin]
  simp only [den, List.zipWith_cons_cons, List.zipWith_nil_left]
  rw [ha3 R xs hx hC]
  rfl

theorem Sem.build2 {B : Operator Int} (hB : WfOp A B) {a b : Arg Int} {O : SubSpace}
    (hax : B.axes = [a.subspace, b.subspace, O])
    {FB : Fn A} (hFB : Computes A B (Cond.triv A) FB) {I J : List SubSpace} {C D : Cond A} {F G : Fn A}
    (ha : ArgSem A a I C F) (hb : ArgSem A b J D G) :
    Sem A (B.build_ [a, b]) (I ++ J) (fun R _ ds => C R (ds.take I.length) ∧ D R (ds.drop I.length))
      (fun R _ ds => FB R [F R (ds.take I.length), G R (ds.drop I.length)]) := by
  obtain ⟨ha1, rfl, ha3⟩ := ha
  obtain ⟨hb1, rfl, hb3⟩ := hb
  obtain ⟨h, h1, h2, h3, h4⟩ := build_apply [a, b] (by simp [ha1, hb1]) B hB (Q := []) (O := O) (by simpa using hax)
  have h3' : h.axes = (Arg.ins a ++ Arg.ins b) ++ [O] := by simpa using h3
  have hin : h.inputs = Arg.ins a ++ Arg.ins b := by rw [Operator.inputs, h3', List.dropLast_concat]
  have hout : h.output = B.output := by rw [Operator.output, h3', List.getLastD_concat]; simp [Operator.output, hax]
  have hBin : B.inputs = [a.subspace, b.subspace] := by simp [Operator.inputs, hax]
  refine ⟨h, h1, h2, hin, ?_⟩
  intro R _ xs hx hC
  rw [hin] at hx hC ⊢
  obtain ⟨x1, x2, x3⟩ := Fits.split hx
  have hd : den A R (Arg.ins a ++ Arg.ins b) xs = den A R (Arg.ins a) (xs.take (Arg.ins a).length) ++
      den A R (Arg.ins b) (xs.drop (Arg.ins a).length) := by
    conv_lhs => rw [x3]
    exact den_append (Fits.length x1)
  rw [hd] at hC ⊢
  have hl1 := den_length (A := A) x1
  simp only [List.take_left' hl1, List.drop_left' hl1] at hC ⊢
  have e := h4 R [xs.take (Arg.ins a).length, xs.drop (Arg.ins a).length] []
    (List.Forall₂.cons (Fits.length x1) (List.Forall₂.cons (Fits.length x2) List.Forall₂.nil)) rfl
  simp only [List.flatten_cons, List.flatten_nil, List.append_nil, List.zipWith_cons_cons, List.zipWith_nil_left] at e
  rw [List.take_append_drop] at e
  rw [hout, e, hFB R _ (by
    rw [hBin]
    exact List.Forall₂.cons (app_length ha1 x1) (List.Forall₂.cons (app_length hb1 x2) List.Forall₂.nil)) trivial, hBin]
  simp only [den, List.zipWith_cons_cons, List.zipWith_nil_left]
  rw [ha3 R _ x1 hC.1, hb3 R _ x2 hC.2]
  rfl

/-! ### kernels given by their action on blades -/

/-- The element a combination of input blades is sent to. -/
noncomputable def term (A : Alg) (R : Type) [CommRing R] (op : Operator Int) (idx : List Nat) : Cl A R :=
  ∑ o ∈ Finset.range op.output.blades.length, (op.kernel.get (idx ++ [o]) : R) • blade A R (op.output.blades.getD o 0)

theorem denote_apply_term (R : Type) [CommRing R] {op : Operator Int} (h : WfOp A op) (xs : List (List R)) :
    denote A R op.output (op.apply R xs) =
      sumIdx (op.inputs.map (·.blades.length)) fun idx => prodAt xs idx • term A R op idx := by
  rw [denote_apply R h]
  simp only [term, Finset.smul_sum]
  rw [sumIdx_sum]
  apply Finset.sum_congr rfl
  intro o _
  rw [evalAt_eq, (wf_cast R h).shape_in, cast_inputs, ← sumIdx_smul]
  apply sumIdx_congr
  intro idx _
  rw [cast_get, smul_smul, mul_comm]

theorem computes_unary {op : Operator Int} (h : WfOp A op) {S O : SubSpace} (hax : op.axes = [S, O])
    (L : ∀ (R : Type) [CommRing R], Cl A R →ₗ[R] Cl A R)
    (hL : ∀ (R : Type) [CommRing R], ∀ i < S.blades.length, term A R op [i] = L R (blade A R (S.blades.getD i 0))) :
    Computes A op (Cond.triv A) (fun R _ ds => L R (ds.headD 0)) := by
  have hin : op.inputs = [S] := by simp [Operator.inputs, hax]
  intro R _ xs hx _
  rw [denote_apply_term R h]
  rw [hin] at hx ⊢
  cases hx with
  | cons hl h' =>
    cases h'
    rename_i x
    simp only [den, List.zipWith_cons_cons, List.zipWith_nil_left, List.headD_cons, List.map_cons, List.map_nil]
    rw [sumIdx_single, denote_eq_sum A R hl, map_sum]
    apply Finset.sum_congr rfl
    intro i hi
    rw [hL R i (Finset.mem_range.1 hi), map_smul]
    simp

theorem computes_binary {op : Operator Int} (h : WfOp A op) {S T O : SubSpace} (hax : op.axes = [S, T, O])
    (L : ∀ (R : Type) [CommRing R], Cl A R →ₗ[R] Cl A R →ₗ[R] Cl A R)
    (hL : ∀ (R : Type) [CommRing R], ∀ i < S.blades.length, ∀ j < T.blades.length,
      term A R op [i, j] = L R (blade A R (S.blades.getD i 0)) (blade A R (T.blades.getD j 0))) :
    Computes A op (Cond.triv A) (fun R _ ds => L R (ds.getD 0 0) (ds.getD 1 0)) := by
  have hin : op.inputs = [S, T] := by simp [Operator.inputs, hax]
  intro R _ xs hx _
  rw [denote_apply_term R h]
  rw [hin] at hx ⊢
  cases hx with
  | cons hl h' =>
    cases h' with
    | cons hl' h'' =>
      cases h''
      rename_i x y
      simp only [den, List.zipWith_cons_cons, List.zipWith_nil_left, List.map_cons, List.map_nil, List.getD_cons_zero,
        List.getD_cons_succ]
      rw [sumIdx_cons, denote_eq_sum A R hl, denote_eq_sum A R hl', map_sum (L R), LinearMap.sum_apply]
      apply Finset.sum_congr rfl
      intro i hi
      rw [sumIdx_single, map_sum]
      apply Finset.sum_congr rfl
      intro j hj
      rw [hL R i (Finset.mem_range.1 hi) j (Finset.mem_range.1 hj), map_smul, map_smul, LinearMap.smul_apply, smul_smul]
      congr 1
      simp [mul_comm]

/-- A kernel with a single nonzero output per combination of input blades. -/
theorem term_single (R : Type) [CommRing R] {op : Operator Int} {idx : List Nat} {s : Int} {c : Nat}
    (hO : WfSub A op.output) (hc : c ∈ op.output.blades)
    (hk : ∀ o < op.output.blades.length, op.kernel.get (idx ++ [o]) = if op.output.blades.getD o 0 = c then s else 0) :
    term A R op idx = (s : R) • blade A R c := by
  have hlt := List.idxOf_lt_length_of_mem hc
  have hg : op.output.blades.getD (op.output.blades.idxOf c) 0 = c := by rw [getD_lt _ _ hlt, List.getElem_idxOf]
  rw [term, Finset.sum_eq_single (op.output.blades.idxOf c)]
  · rw [hk _ hlt, if_pos hg, hg]
  · intro o ho hne
    have ho' := Finset.mem_range.1 ho
    rw [hk o ho', if_neg]
    · simp
    · intro he
      apply hne
      rw [getD_lt _ _ ho'] at he
      rw [← he, hO.nodup.idxOf_getElem]
  · intro h; exact absurd (Finset.mem_range.2 hlt) h

/-! ### sparse to dense -/

theorem card_le {S : SubSpace} (hS : WfSub A S) : S.blades.length ≤ 2 ^ A.n := by
  have := (hS.nodup.subperm (fun b hb => List.mem_range.2 (hS.lt b hb))).length_le
  simpa using this

theorem zip_mapM_idxOf {bs : List Nat} {axes : List SubSpace} (h : List.Forall₂ (fun b (S : SubSpace) => b ∈ S.blades) bs axes) :
    (bs.zip axes).mapM (fun p : Nat × SubSpace => if p.1 ∈ p.2.blades then some (p.2.blades.idxOf p.1) else none)
      = some (List.zipWith (fun b (S : SubSpace) => S.blades.idxOf b) bs axes) := by
  induction h with
  | nil => rfl
  | cons h _ ih => rw [List.zip_cons_cons, List.mapM_cons, ih]; simp [h]

theorem idxOf_getD {S : SubSpace} (hS : WfSub A S) {i : Nat} (hi : i < S.blades.length) :
    S.blades.idxOf (S.blades.getD i 0) = i := by
  rw [getD_lt _ _ hi, hS.nodup.idxOf_getElem]

theorem getD_mem {S : SubSpace} {i : Nat} (hi : i < S.blades.length) : S.blades.getD i 0 ∈ S.blades := by
  rw [getD_lt _ _ hi]; exact List.getElem_mem _

theorem find_reverse_unique {α : Type*} {f : α → List Nat × Int} (l : List α) (idx : List Nat) (g : α → List Nat)
    (hf : ∀ a ∈ l, (f a).1 = g a) (hinj : ∀ a ∈ l, ∀ b ∈ l, g a = g b → a = b) :
    (∀ a ∈ l, g a = idx → (l.map f).reverse.find? (·.1 == idx) = some (f a)) ∧
    ((∀ a ∈ l, g a ≠ idx) → (l.map f).reverse.find? (·.1 == idx) = none) := by
  constructor
  · intro a ha hga
    have hmem : f a ∈ (l.map f).reverse := by simpa using ⟨a, ha, rfl⟩
    have hp : ((f a).1 == idx) = true := by simp [hf a ha, hga]
    cases hfind : (l.map f).reverse.find? (·.1 == idx) with
    | none => exact absurd hp (by simpa using List.find?_eq_none.1 hfind _ hmem)
    | some e =>
      have h1 := List.mem_of_find?_eq_some hfind
      have h2 := List.find?_some hfind
      rw [List.mem_reverse, List.mem_map] at h1
      obtain ⟨b, hb, rfl⟩ := h1
      have : g b = idx := by rw [← hf b hb]; simpa using h2
      rw [hinj a ha b hb (by rw [hga, this])]
  · intro h
    rw [List.find?_eq_none]
    intro e he
    rw [List.mem_reverse, List.mem_map] at he
    obtain ⟨b, hb, rfl⟩ := he
    simpa [hf b hb] using h b hb

theorem toDense_spec (hA : WfAlg A) {ins : List SubSpace} (hins : ∀ S ∈ ins, WfSub A S) {O : SubSpace} (hO : WfSub A O)
    (cay : List Nat → Nat) (sign : List Nat → Int)
    (hc : ∀ idx, Valid idx (ins.map (·.blades.length)) → cay idx ∈ O.blades) :
    ∃ t, (fromCayley A ins cay sign).toDense (ins ++ [O]) = some t ∧
      t.shape = (ins ++ [O]).map (·.blades.length) ∧
      ∀ idx, Valid idx (ins.map (·.blades.length)) → ∀ o < O.blades.length,
        t.get (idx ++ [o]) = if O.blades.getD o 0 = cay idx then sign idx else 0 := by
  have hblades : ∀ (ins : List SubSpace) (_ : ∀ S ∈ ins, WfSub A S) (idx : List Nat), Valid idx (ins.map (·.blades.length)) →
      List.zipWith (fun (inp : SubSpace) i => inp.blades.getD (A.toDtype i) 0) ins idx =
      List.zipWith (fun (inp : SubSpace) i => inp.blades.getD i 0) ins idx ∧
      List.Forall₂ (fun b (S : SubSpace) => b ∈ S.blades)
        (List.zipWith (fun (inp : SubSpace) i => inp.blades.getD i 0) ins idx) ins ∧
      List.zipWith (fun b (S : SubSpace) => S.blades.idxOf b)
        (List.zipWith (fun (inp : SubSpace) i => inp.blades.getD i 0) ins idx) ins = idx := by
    intro ins hins
    induction ins with
    | nil => intro idx h; cases h; simp
    | cons S ins ih =>
      intro idx h
      cases h with
      | cons h h' =>
        have hS := hins S (by simp)
        obtain ⟨i1, i2, i3⟩ := ih (fun T hT => hins T (by simp [hT])) _ h'
        refine ⟨?_, ?_, ?_⟩
        · rw [List.zipWith_cons_cons, List.zipWith_cons_cons, i1, toDtype_lt hA (lt_of_lt_of_le h (card_le hS))]
        · exact List.Forall₂.cons (getD_mem h) i2
        · rw [List.zipWith_cons_cons, List.zipWith_cons_cons, i3, idxOf_getD hS h]
  have hent : ∀ e ∈ allIdx (ins.map (·.blades.length)),
      (fun e : List Nat × Int => (do
        let idx ← (e.1.zip (ins ++ [O])).mapM fun p => if p.1 ∈ p.2.blades then some (p.2.blades.idxOf p.1) else none
        some (idx, e.2) : Option (List Nat × Int)))
        (List.zipWith (fun (inp : SubSpace) i => inp.blades.getD (A.toDtype i) 0) ins e ++ [cay e], sign e)
      = some (e ++ [O.blades.idxOf (cay e)], sign e) := by
    intro e he
    rw [mem_allIdx] at he
    obtain ⟨i1, i2, i3⟩ := hblades ins hins e he
    simp only
    rw [i1, zip_mapM_idxOf (List.rel_append i2 (List.Forall₂.cons (hc e he) List.Forall₂.nil)),
      List.zipWith_append i2.length_eq, i3]
    rfl
  have hmapM : (fromCayley A ins cay sign).mapM (fun e : List Nat × Int => (do
        let idx ← (e.1.zip (ins ++ [O])).mapM fun p => if p.1 ∈ p.2.blades then some (p.2.blades.idxOf p.1) else none
        some (idx, e.2) : Option (List Nat × Int))) =
      some ((allIdx (ins.map (·.blades.length))).map fun e => (e ++ [O.blades.idxOf (cay e)], sign e)) := by
    rw [fromCayley, List.mapM_map]
    exact mapM_some hent
  refine ⟨{ shape := (ins ++ [O]).map (·.blades.length)
            get := fun idx => match ((allIdx (ins.map (·.blades.length))).map fun e =>
                (e ++ [O.blades.idxOf (cay e)], sign e)).reverse.find? (·.1 == idx) with
              | some e => e.2
              | none => 0 }, ?_, rfl, ?_⟩
  · rw [SparseTensor.toDense, hmapM]; rfl
  · intro idx hidx o ho
    have hu := find_reverse_unique (f := fun e : List Nat => (e ++ [O.blades.idxOf (cay e)], sign e))
      (allIdx (ins.map (·.blades.length))) (idx ++ [o]) (fun e => e ++ [O.blades.idxOf (cay e)]) (fun _ _ => rfl) (by
        intro a ha b hb hab
        rw [mem_allIdx] at ha hb
        exact (List.append_inj hab (by rw [ha.length, hb.length])).1)
    simp only
    by_cases hoc : O.blades.getD o 0 = cay idx
    · have := hu.1 idx ((mem_allIdx _ _).2 hidx) (by rw [← hoc, idxOf_getD hO ho])
      rw [this, if_pos hoc]
    · have := hu.2 (by
        intro a ha he
        rw [mem_allIdx] at ha
        obtain ⟨e1, e2⟩ := List.append_inj he (by rw [ha.length, hidx.length])
        subst e1
        apply hoc
        have e3 : O.blades.idxOf (cay a) = o := by simpa using e2
        rw [← e3, getD_lt _ _ (List.idxOf_lt_length_of_mem (hc a hidx)), List.getElem_idxOf])
      rw [this, if_neg hoc]

/-! ### symmetry -/

/-- `symmetry` with its final `squeeze`: values are kept on equal arguments, and an output blade is only kept if the
symmetrised kernel reaches it. -/
theorem symmetry_spec (hA : WfAlg A) {op : Operator Int} (h : WfOp A op) {axes : List Nat} (hne : axes ≠ []) (hnd : axes.Nodup)
    (hlt : ∀ a ∈ axes, a < op.inputs.length) {T : SubSpace} (hT : ∀ a ∈ axes, op.inputs[a]? = some T) :
    ∃ s : Operator Int, op.symmetry A axes = some s ∧ WfOp A s ∧ s.inputs = op.inputs ∧
      (∀ b ∈ s.output.blades, ∃ o < op.output.blades.length, op.output.blades.getD o 0 = b ∧
        ∃ idx, Valid idx (op.inputs.map (·.blades.length)) ∧
          (axes.permutations'.map fun p => op.kernel.get (permIdx axes p op.inputs.length idx ++ [o])).sum ≠ 0) ∧
      ∀ (R : Type) [CommRing R] (xs : List (List R)), xs.length = op.inputs.length →
        (∀ a ∈ axes, ∀ b ∈ axes, xs.getD a [] = xs.getD b []) →
        denote A R s.output (s.apply R xs) = denote A R op.output (op.apply R xs) := by
  obtain ⟨s0, e1, e2, e3, e4, e5⟩ := symmetry_pre h hne hnd hlt hT
  obtain ⟨s, s1, s2, s3, s4, _, s6⟩ := squeeze_spec hA e2
  have hin : s0.inputs = op.inputs := by rw [Operator.inputs, e3, Operator.inputs]
  have hout : s0.output = op.output := by rw [Operator.output, e3, Operator.output]
  have hshape : s0.kernel.shape = op.kernel.shape := by rw [e2.shape, e3, h.shape]
  have hndim : op.kernel.ndim = op.inputs.length + 1 := by rw [Tensor.ndim, h.shape_eq]; simp
  refine ⟨s, by rw [e1, s1], s2, by rw [s3, hin], ?_, ?_⟩
  · intro b hb
    rw [s4, List.mem_map] at hb
    obtain ⟨o, ho, rfl⟩ := hb
    rw [List.mem_filter, List.mem_range, anyInputs_iff, hout] at ho
    obtain ⟨ho1, idx, hidx, hnz⟩ := ho
    rw [hshape, h.shape_in] at hidx
    have hperm : ∀ (i : List Nat), Valid i (op.inputs.map (·.blades.length)) →
        (axes.permutations'.map fun p => op.kernel.get (permIdx axes p op.kernel.ndim (i ++ [o]))).sum =
        (axes.permutations'.map fun p => op.kernel.get (permIdx axes p op.inputs.length i ++ [o])).sum := by
      intro i hi
      congr 1
      apply List.map_congr_left
      intro p hp
      rw [hndim, permIdx_append (List.mem_permutations'.1 hp) hlt (by simpa using hi.length)]
    have hv : Valid (idx ++ [o]) op.kernel.shape := by
      rw [h.shape_eq]
      exact hidx.append (List.Forall₂.cons ho1 List.Forall₂.nil)
    refine ⟨o, ho1, by rw [hout], ?_⟩
    rcases e4 with e4 | e4
    · refine ⟨idx, hidx, ?_⟩
      rw [← hperm idx hidx, ← e4 _ hv]
      apply mul_ne_zero hnz
      rw [length_permutations']; exact_mod_cast (Nat.factorial_pos _).ne'
    · rcases e4.2 _ hv with ⟨_, i, hi, hs⟩ | h0
      · rw [h.shape_in] at hi
        refine ⟨i, hi, ?_⟩
        rw [List.getLastD_concat] at hs
        rwa [← hperm i hi]
      · exact absurd h0 hnz
  · intro R _ xs hl heq
    rw [s6, denote_apply R e2, denote_apply R h, hout]
    apply Finset.sum_congr rfl
    intro o ho
    rw [e5 R xs hl heq o (Finset.mem_range.1 ho)]

/-- The condition that the elements at the given positions are equal. -/
def Cond.eqOn (A : Alg) (axes : List Nat) : Cond A := fun _ _ ds => ∀ a ∈ axes, ∀ b ∈ axes, ds.getD a 0 = ds.getD b 0

theorem den_getD {R : Type} [CommRing R] {I : List SubSpace} {xs : List (List R)} (h : Fits xs I) {i : Nat} {T : SubSpace}
    (hi : I[i]? = some T) : (den A R I xs).getD i 0 = denote A R T (xs.getD i []) := by
  have hl : i < I.length := (List.getElem?_eq_some_iff.1 hi).1
  have hl' : i < xs.length := by rw [Fits.length h]; exact hl
  rw [getD_lt _ _ (by simp [den]; omega), getD_lt _ _ hl']
  simp only [den, List.getElem_zipWith]
  rw [(List.getElem?_eq_some_iff.1 hi).2]

theorem Fits.getD {R : Type} [CommRing R] {I : List SubSpace} {xs : List (List R)} (h : Fits xs I) {i : Nat} {T : SubSpace}
    (hi : I[i]? = some T) : (xs.getD i []).length = T.blades.length := by
  have hl : i < I.length := (List.getElem?_eq_some_iff.1 hi).1
  have hl' : i < xs.length := by rw [Fits.length h]; exact hl
  rw [getD_lt _ _ hl']
  have := List.Forall₂.get h hl' hl
  simp only [List.get_eq_getElem] at this
  rw [this, (List.getElem?_eq_some_iff.1 hi).2]

theorem Sem.symmetry (hA : WfAlg A) {r : Option (Operator Int)} {ins : List SubSpace} {C : Cond A} {F : Fn A}
    (h : Sem A r ins C F) {axes : List Nat} (hne : axes ≠ []) (hnd : axes.Nodup) {T : SubSpace}
    (hT : ∀ a ∈ axes, ins[a]? = some T) :
    Sem A (r.bind (·.symmetry A axes)) ins (fun R _ ds => C R ds ∧ Cond.eqOn A axes R ds) F := by
  obtain ⟨op, h1, h2, rfl, h4⟩ := h
  have hlt : ∀ a ∈ axes, a < op.inputs.length := fun a ha => (List.getElem?_eq_some_iff.1 (hT a ha)).1
  have hTw : ∀ a ∈ axes, WfSub A T := fun a ha =>
    h2.wf_inputs T (List.mem_of_getElem? (hT a ha))
  obtain ⟨s, s1, s2, s3, _, s5⟩ := symmetry_spec hA h2 hne hnd hlt hT
  refine ⟨s, by rw [h1, Option.bind_some, s1], s2, s3, ?_⟩
  intro R _ xs hx hC
  rw [s3] at hx hC ⊢
  rw [s5 R xs (Fits.length hx), h4 R xs hx hC.1]
  intro a ha b hb
  have := hC.2 a ha b hb
  rw [den_getD hx (hT a ha), den_getD hx (hT b hb)] at this
  exact denote_inj A R (hTw a ha) (Fits.getD hx (hT a ha)) (Fits.getD hx (hT b hb)) this

/-! ### kernel entries from what an operator computes -/

/-- Coefficients of a single blade. -/
def unitVec (R : Type) [CommRing R] (n i : Nat) : List R := (List.range n).map fun j => if j = i then 1 else 0

theorem unitVec_length (R : Type) [CommRing R] (n i : Nat) : (unitVec R n i).length = n := by simp [unitVec]

theorem unitVec_getD (R : Type) [CommRing R] {n i j : Nat} (hj : j < n) :
    (unitVec R n i).getD j 0 = if j = i then 1 else 0 := by
  rw [getD_lt _ _ (by simpa [unitVec] using hj)]; simp [unitVec]

theorem denote_unitVec {R : Type} [CommRing R] {S : SubSpace} {i : Nat} (hi : i < S.blades.length) :
    denote A R S (unitVec R S.blades.length i) = blade A R (S.blades.getD i 0) := by
  rw [denote_eq_sum A R (unitVec_length R _ _), Finset.sum_eq_single i]
  · rw [unitVec_getD R hi]; simp
  · intro j hj hne
    rw [unitVec_getD R (Finset.mem_range.1 hj), if_neg hne, zero_smul]
  · intro h; exact absurd (Finset.mem_range.2 hi) h

/-- The blades at an index. -/
def bladesAt (A : Alg) (R : Type) [CommRing R] (ins : List SubSpace) (idx : List Nat) : List (Cl A R) :=
  List.zipWith (fun (S : SubSpace) i => blade A R (S.blades.getD i 0)) ins idx

theorem units_spec (R : Type) [CommRing R] {ins : List SubSpace} {idx : List Nat} (h : Valid idx (ins.map (·.blades.length))) :
    Fits (List.zipWith (fun (S : SubSpace) i => unitVec R S.blades.length i) ins idx) ins ∧
    den A R ins (List.zipWith (fun (S : SubSpace) i => unitVec R S.blades.length i) ins idx) = bladesAt A R ins idx ∧
    ∀ idx', Valid idx' (ins.map (·.blades.length)) →
      prodAt (List.zipWith (fun (S : SubSpace) i => unitVec R S.blades.length i) ins idx) idx' = if idx' = idx then 1 else 0 := by
  induction ins generalizing idx with
  | nil =>
    cases h
    refine ⟨List.Forall₂.nil, rfl, ?_⟩
    intro idx' h'; cases h'; simp
  | cons S ins ih =>
    cases h with
    | cons h h' =>
      obtain ⟨i1, i2, i3⟩ := ih h'
      refine ⟨List.Forall₂.cons (unitVec_length R _ _) i1, ?_, ?_⟩
      · simp only [den, bladesAt, List.zipWith_cons_cons] at i2 ⊢
        rw [denote_unitVec h, i2]
      · intro idx' hv
        cases hv with
        | cons hh hh' =>
          rw [List.zipWith_cons_cons, prodAt_cons, i3 _ hh', unitVec_getD R hh]
          simp only [List.cons.injEq]
          split_ifs <;> simp_all

/-- An operator computing `F` for all inputs sends blades to the value of `F`. -/
theorem Computes.term {op : Operator Int} (h : WfOp A op) {F : Fn A} (hF : Computes A op (Cond.triv A) F)
    (R : Type) [CommRing R] {idx : List Nat} (hidx : Valid idx (op.inputs.map (·.blades.length))) :
    Verif.term A R op idx = F R (bladesAt A R op.inputs idx) := by
  obtain ⟨u1, u2, u3⟩ := units_spec (A := A) R hidx
  have := hF R _ u1 trivial
  rw [denote_apply_term R h, u2] at this
  rw [← this, sumIdx_congr (g := fun i => if i = idx then Verif.term A R op idx else 0)]
  · rw [sumIdx_eq, Finset.sum_ite_eq' , if_pos (by simpa [mem_allIdx] using hidx)]
  · intro i hi
    rw [u3 i hi]
    split_ifs with h
    · rw [h, one_smul]
    · rw [zero_smul]

theorem coef_term (R : Type) [CommRing R] {op : Operator Int} (h : WfOp A op) (idx : List Nat) {o : Nat}
    (ho : o < op.output.blades.length) :
    coef A R (op.output.blades.getD o 0) (Verif.term A R op idx) = (op.kernel.get (idx ++ [o]) : R) := by
  rw [Verif.term, map_sum, Finset.sum_eq_single o]
  · rw [map_smul, coef_blade _ _ (h.wf_output.lt _ (getD_mem ho)), if_pos rfl]; simp
  · intro j hj hne
    have hj' := Finset.mem_range.1 hj
    rw [map_smul, coef_blade _ _ (h.wf_output.lt _ (getD_mem hj')), if_neg, smul_zero]
    intro he
    apply hne
    rw [← idxOf_getD h.wf_output hj', ← he, idxOf_getD h.wf_output ho]
  · intro h'; exact absurd (Finset.mem_range.2 ho) h'

/-- Every kernel entry is a coefficient of the value of `F` on blades. -/
theorem Computes.entry {op : Operator Int} (h : WfOp A op) {F : Fn A} (hF : Computes A op (Cond.triv A) F)
    {idx : List Nat} (hidx : Valid idx (op.inputs.map (·.blades.length))) {o : Nat} (ho : o < op.output.blades.length) :
    op.kernel.get (idx ++ [o]) = coef A ℤ (op.output.blades.getD o 0) (F ℤ (bladesAt A ℤ op.inputs idx)) := by
  rw [← Computes.term h hF ℤ hidx, coef_term ℤ h idx ho]; simp

/-- Conversely the coefficients outside the output space vanish. -/
theorem Computes.outside {op : Operator Int} (h : WfOp A op) {F : Fn A} (hF : Computes A op (Cond.triv A) F)
    (R : Type) [CommRing R] {idx : List Nat} (hidx : Valid idx (op.inputs.map (·.blades.length))) {b : Nat}
    (hb : b ∉ op.output.blades) : coef A R b (F R (bladesAt A R op.inputs idx)) = 0 := by
  rw [← Computes.term h hF R hidx, Verif.term, map_sum]
  apply Finset.sum_eq_zero
  intro j hj
  have hj' := Finset.mem_range.1 hj
  rw [map_smul, coef_blade _ _ (h.wf_output.lt _ (getD_mem hj')), if_neg, smul_zero]
  rintro rfl
  exact hb (getD_mem hj')

end Verif
