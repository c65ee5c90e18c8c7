import Verif.Proofs.Operator
/-! # Lemmas about binding arguments: `bind`, `build`, `_build` -/
namespace Verif
open Model Spec

/-- Inputs of an argument: a subspace is its own single input. -/
def Arg.ins {K : Type} : Arg K → List SubSpace
  | .sub S => [S]
  | .op O => O.inputs

/-- Value of an argument on given inputs. -/
def Arg.app (R : Type) [CommRing R] : Arg Int → List (List R) → List R
  | .sub _, xs => xs.headD []
  | .op O, xs => O.apply R xs

theorem operatorsOf_append {K : Type} (a b : List (Arg K)) (s : Nat) :
    operatorsOf (a ++ b) s = operatorsOf a s ++ operatorsOf b (s + a.length) := by
  induction a generalizing s with
  | nil => simp [operatorsOf]
  | cons x a ih =>
    cases x <;> simp [operatorsOf, ih, Nat.add_assoc, Nat.add_comm 1]

theorem operatorsOf_bounds {K : Type} (a : List (Arg K)) (s : Nat) :
    ∀ p ∈ operatorsOf a s, s ≤ p.1 ∧ p.1 < s + a.length := by
  induction a generalizing s with
  | nil => simp [operatorsOf]
  | cons x a ih =>
    intro p hp
    cases x with
    | sub S =>
      have := ih (s + 1) p (by simpa [operatorsOf] using hp)
      simp only [List.length_cons]; omega
    | op O =>
      rcases List.mem_cons.1 (by simpa only [operatorsOf] using hp) with rfl | h
      · simp
      · have := ih (s + 1) p h
        simp only [List.length_cons]; omega

theorem operatorsOf_sorted {K : Type} (a : List (Arg K)) (s : Nat) :
    (operatorsOf a s).Pairwise fun p q => p.1 < q.1 := by
  induction a generalizing s with
  | nil => simp [operatorsOf]
  | cons x a ih =>
    cases x with
    | sub S => simpa [operatorsOf] using ih (s + 1)
    | op O =>
      rw [operatorsOf, List.pairwise_cons]
      exact ⟨fun p hp => by have := operatorsOf_bounds a (s+1) p hp; simp only; omega, ih (s + 1)⟩

theorem eq_of_perm_sorted_fst {K : Type} {l l' : List (Nat × K)} (hp : l.Perm l')
    (hs : l.Pairwise fun p q => p.1 > q.1) (hs' : l'.Pairwise fun p q => p.1 ≥ q.1) : l = l' := by
  induction l generalizing l' with
  | nil => exact (List.nil_perm.1 hp).symm
  | cons x l ih =>
    cases l' with
    | nil => exact absurd hp.length_eq (by simp)
    | cons y l' =>
      rw [List.pairwise_cons] at hs hs'
      have hxy : x = y := by
        by_contra hne
        have h1 : x ∈ l' := by
          rcases List.mem_cons.1 (hp.mem_iff.1 List.mem_cons_self) with h | h
          · exact absurd h hne
          · exact h
        have h2 : y ∈ l := by
          rcases List.mem_cons.1 (hp.mem_iff.2 List.mem_cons_self) with h | h
          · exact absurd h.symm hne
          · exact h
        have := hs.1 y h2
        have := hs'.1 x h1
        omega
      subst hxy
      rw [ih (List.perm_cons x |>.1 hp) hs.2 hs'.2]

theorem insertionSort_desc {K : Type} {d l : List (Nat × K)} (hp : d.Perm l)
    (hl : l.Pairwise fun p q => p.1 < q.1) :
    d.insertionSort (fun p q => p.1 ≥ q.1) = l.reverse := by
  have htr : IsTrans (Nat × K) (fun p q : Nat × K => p.1 ≥ q.1) := ⟨fun a b c h h' => le_trans h' h⟩
  have hto : Std.Total (α := Nat × K) (fun p q : Nat × K => p.1 ≥ q.1) := ⟨fun a b => le_total _ _⟩
  refine (eq_of_perm_sorted_fst ?_ (List.pairwise_reverse.2 hl) (List.pairwise_insertionSort _ _)).symm
  exact (l.reverse_perm.trans hp.symm).trans (List.perm_insertionSort _ _).symm

theorem build_eq_foldl {K : Type} [CommRing K] (self : Operator K) (args : List (Arg K)) :
    self.build_ args = (operatorsOf args).reverse.foldlM (fun fused p => p.2.fuse fused p.1) self := by
  rw [Operator.build_, Operator.bind, insertionSort_desc (List.Perm.refl _) (operatorsOf_sorted args 0)]

theorem build_sub_last {K : Type} [CommRing K] (self : Operator K) (args : List (Arg K)) (S : SubSpace) :
    self.build_ (args ++ [.sub S]) = self.build_ args := by
  simp [build_eq_foldl, operatorsOf_append, operatorsOf]

theorem build_op_last {K : Type} [CommRing K] (self : Operator K) (args : List (Arg K)) (O : Operator K) :
    self.build_ (args ++ [.op O]) = (O.fuse self args.length).bind (·.build_ args) := by
  simp only [build_eq_foldl, operatorsOf_append, operatorsOf, List.reverse_append, List.reverse_cons, List.reverse_nil,
    List.nil_append, List.singleton_append, List.foldlM_cons, Nat.zero_add, List.cons_append]
  rfl

theorem args_ins_subspace {A : Alg} {a : Arg Int} (ha : WfArg A a) :
    WfSub A a.subspace := by
  cases a with
  | sub S => exact ha
  | op O => exact ha.wf_output

/-- `_build` composes with all operator arguments. -/
theorem build_apply {A : Alg} (args : List (Arg Int)) (hargs : ∀ a ∈ args, WfArg A a) (self : Operator Int)
    (hself : WfOp A self) {Q : List SubSpace} {O : SubSpace}
    (hax : self.axes = args.map Arg.subspace ++ (Q ++ [O])) :
    ∃ h, self.build_ args = some h ∧ WfOp A h ∧ h.axes = args.flatMap Arg.ins ++ (Q ++ [O]) ∧
      ∀ (R : Type) [CommRing R] (xss : List (List (List R))) (xq : List (List R)),
        List.Forall₂ (fun (a : Arg Int) xs => xs.length = (Arg.ins a).length) args xss → xq.length = Q.length →
        h.apply R (xss.flatten ++ xq) = self.apply R (List.zipWith (Arg.app R) args xss ++ xq) := by
  induction args using List.reverseRecOn generalizing self Q with
  | nil =>
    refine ⟨self, ?_, hself, by simpa using hax, ?_⟩
    · simp [build_eq_foldl, operatorsOf]
    · intro R _ xss xq h _
      cases h; simp
  | append_singleton args a ih =>
    have hargs' : ∀ a ∈ args, WfArg A a := fun b hb => hargs b (by simp [hb])
    have ha : WfArg A a := hargs a (by simp)
    cases a with
    | sub S =>
      obtain ⟨h, h1, h2, h3, h4⟩ := ih hargs' self hself (Q := S :: Q) (by simpa [Arg.subspace] using hax)
      refine ⟨h, by rw [build_sub_last, h1], h2, by simpa [Arg.ins] using h3, ?_⟩
      intro R _ xss xq hx hq
      obtain ⟨xss', x', rfl⟩ : ∃ u v, xss = u ++ [v] := by
        have := hx.length_eq
        rcases List.eq_nil_or_concat xss with rfl | ⟨u, v, rfl⟩
        · simp at this
        · exact ⟨u, v, by simp⟩
      have hl : args.length = xss'.length := by simpa using hx.length_eq
      obtain ⟨hx1, hx2⟩ : List.Forall₂ (fun (a : Arg Int) (xs : List (List R)) => xs.length = (Arg.ins a).length) args xss' ∧
          x'.length = 1 := by
        have e1 := List.forall₂_take args.length hx
        have e2 := List.forall₂_drop args.length hx
        simp only [List.take_left, List.drop_left] at e1 e2
        rw [hl] at e1 e2
        simp only [List.take_left, List.drop_left] at e1 e2
        exact ⟨e1, by cases e2 with | cons h _ => simpa [Arg.ins] using h⟩
      obtain ⟨y, rfl⟩ := List.length_eq_one_iff.1 hx2
      have := h4 R xss' (y :: xq) hx1 (by simp [hq])
      rw [List.zipWith_append hl]
      simpa [Arg.app] using this
    | op F =>
      have hfa : F.axes = F.inputs ++ [F.output] := Spec.WfOp.axes_eq ha
      obtain ⟨g, g1, g2, g3, g4⟩ := fuse_apply (f := F) (g := self) ha hself (P := args.map Arg.subspace) (Q := Q) (O := O)
        hfa (by simpa [Arg.subspace] using hax)
      obtain ⟨h, h1, h2, h3, h4⟩ := ih hargs' g g2 (Q := F.inputs ++ Q) (by rw [g3]; simp)
      refine ⟨h, ?_, h2, by simpa [Arg.ins] using h3, ?_⟩
      · rw [build_op_last]
        rw [List.length_map] at g1
        simp [g1, h1]
      intro R _ xss xq hx hq
      obtain ⟨xss', x', rfl⟩ : ∃ u v, xss = u ++ [v] := by
        have := hx.length_eq
        rcases List.eq_nil_or_concat xss with rfl | ⟨u, v, rfl⟩
        · simp at this
        · exact ⟨u, v, by simp⟩
      have hl : args.length = xss'.length := by simpa using hx.length_eq
      obtain ⟨hx1, hx2⟩ : List.Forall₂ (fun (a : Arg Int) (xs : List (List R)) => xs.length = (Arg.ins a).length) args xss' ∧
          x'.length = F.inputs.length := by
        have e1 := List.forall₂_take args.length hx
        have e2 := List.forall₂_drop args.length hx
        simp only [List.take_left, List.drop_left] at e1 e2
        rw [hl] at e1 e2
        simp only [List.take_left, List.drop_left] at e1 e2
        exact ⟨e1, by cases e2 with | cons h _ => simpa [Arg.ins] using h⟩
      have e3 := h4 R xss' (x' ++ xq) hx1 (by simp [hq, hx2])
      rw [List.zipWith_append hl]
      have e4 := g4 R (List.zipWith (Arg.app R) args xss') x' xq (by simp [hl]) hx2 hq
      simp only [List.flatten_append, List.flatten_cons, List.flatten_nil, List.append_nil, List.append_assoc] at e3 e4 ⊢
      rw [e3, e4]
      simp [Arg.app]

end Verif
