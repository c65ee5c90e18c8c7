import Verif.Proofs.Squeeze
import Mathlib.Algebra.MvPolynomial.Eval
import Mathlib.Algebra.MvPolynomial.CommRing
import Mathlib.RingTheory.MvPolynomial.Basic
/-! # Lemmas about `symmetry` -/
namespace Verif
open Model Spec

theorem length_permutations' {α : Type*} (l : List α) : l.permutations'.length = l.length.factorial := by
  rw [← (List.permutations_perm_permutations' l).length_eq, List.length_permutations]

/-! ### permuting axes -/

/-- Where position `i` reads from, when `axes` is rearranged to `p`. -/
def permPos (axes p : List Nat) (i : Nat) : Nat := if i ∈ axes then p.getD (axes.idxOf i) 0 else i

/-- The index read by the permuted array. -/
def permIdx (axes p : List Nat) (n : Nat) (idx : List Nat) : List Nat :=
  (List.range n).map fun i => idx.getD (permPos axes p i) 0

theorem permPos_mem {axes p : List Nat} (hp : p.Perm axes) {i : Nat} (hi : i ∈ axes) : permPos axes p i ∈ axes := by
  rw [permPos, if_pos hi]
  have h := List.idxOf_lt_length_of_mem hi
  rw [← hp.length_eq] at h
  rw [getD_lt _ _ h]
  exact hp.mem_iff.1 (List.getElem_mem _)

theorem permPos_inv {axes p : List Nat} (hp : p.Perm axes) (hnd : axes.Nodup) (i : Nat) :
    permPos p axes (permPos axes p i) = i := by
  by_cases hi : i ∈ axes
  · have h := List.idxOf_lt_length_of_mem hi
    have h' : axes.idxOf i < p.length := by rw [hp.length_eq]; exact h
    have hm : p[axes.idxOf i] ∈ p := List.getElem_mem _
    rw [permPos, permPos, if_pos hi, getD_lt _ _ h', if_pos hm, (hp.nodup_iff.2 hnd).idxOf_getElem, getD_lt _ _ h]
    exact List.getElem_idxOf h
  · have hip : i ∉ p := fun h => hi (hp.mem_iff.1 h)
    rw [permPos, permPos, if_neg hi, if_neg hip]

theorem permPos_lt {axes p : List Nat} (hp : p.Perm axes) {n : Nat} (hlt : ∀ a ∈ axes, a < n) {i : Nat} (hi : i < n) :
    permPos axes p i < n := by
  by_cases h : i ∈ axes
  · exact hlt _ (permPos_mem hp h)
  · rw [permPos, if_neg h]; exact hi

theorem moveOrder_perm {axes p : List Nat} (hp : p.Perm axes) (hnd : axes.Nodup) {n : Nat} (hlt : ∀ a ∈ axes, a < n) :
    moveOrder n axes p = (List.range n).map (permPos p axes) := by
  apply moveOrder_eq hp.length_eq.symm (hp.nodup_iff.2 hnd)
  · intro j a b ha hb
    have hbp : b ∈ p := List.mem_of_getElem? hb
    have hbn : b < n := hlt b (hp.mem_iff.1 hbp)
    rw [List.getElem?_map, List.getElem?_range hbn, Option.map_some, Option.some_inj, permPos, if_pos hbp]
    obtain ⟨hj, rfl⟩ := List.getElem?_eq_some_iff.1 hb
    rw [(hp.nodup_iff.2 hnd).idxOf_getElem]
    simp [ha]
  · have e : ((List.range n).map (permPos p axes)).zipIdx = (List.range n).map fun i => (permPos p axes i, i) := by
      apply List.ext_getElem (by simp)
      intro i h1 h2
      simp
    rw [e, List.filter_map, List.map_map]
    have : ((fun q : Nat × Nat => decide (q.2 ∉ p)) ∘ fun i => (permPos p axes i, i)) = fun i => decide (i ∉ axes) := by
      funext i; simp [hp.mem_iff]
    rw [this]
    conv_rhs => rw [← List.map_id ((List.range n).filter _)]
    apply List.map_congr_left
    intro i hi
    have : i ∉ p := by
      rw [hp.mem_iff]
      simpa using (List.mem_filter.1 hi).2
    simp [permPos, this]

theorem moveaxis_perm {K : Type} (a : Tensor K) {axes p : List Nat} (hp : p.Perm axes) (hnd : axes.Nodup)
    (hlt : ∀ i ∈ axes, i < a.ndim) (hsh : ∀ i ∈ axes, ∀ j ∈ axes, a.shape.getD i 0 = a.shape.getD j 0) :
    ∃ t, a.moveaxis axes p = some t ∧ t.shape = a.shape ∧ ∀ idx, t.get idx = a.get (permIdx axes p a.ndim idx) := by
  refine ⟨a.transpose (moveOrder a.ndim axes p), ?_, ?_, ?_⟩
  · rw [Tensor.moveaxis, if_pos]
    exact ⟨hnd, hp.nodup_iff.2 hnd, hlt, fun i hi => hlt i (hp.mem_iff.1 hi), hp.length_eq.symm⟩
  · rw [moveOrder_perm hp hnd hlt, Tensor.transpose]
    simp only [List.map_map]
    conv_rhs => rw [← map_getD_range a.shape 0]
    apply List.map_congr_left
    intro i _
    simp only [Function.comp]
    by_cases hi : i ∈ p
    · have := permPos_mem hp.symm hi
      exact hsh _ (hp.mem_iff.1 this) _ (hp.mem_iff.1 hi)
    · rw [permPos, if_neg hi]
  · intro idx
    rw [moveOrder_perm hp hnd hlt, Tensor.transpose, permIdx]
    simp only
    congr 1
    apply List.map_congr_left
    intro j hj
    have hj' := List.mem_range.1 hj
    congr 1
    have hnd' : ((List.range a.ndim).map (permPos p axes)).Nodup := by
      apply List.Nodup.map_on _ List.nodup_range
      intro x _ y _ hxy
      have := congrArg (permPos axes p) hxy
      rwa [permPos_inv hp.symm (hp.nodup_iff.2 hnd), permPos_inv hp.symm (hp.nodup_iff.2 hnd)] at this
    have hk := permPos_lt hp hlt hj'
    have : ((List.range a.ndim).map (permPos p axes))[permPos axes p j]'(by simpa using hk) = j := by
      simp [permPos_inv hp hnd]
    conv_lhs => rw [← this]
    exact hnd'.idxOf_getElem _ _

theorem mapM_some {α β : Type*} {f : α → Option β} {g : α → β} {l : List α} (h : ∀ x ∈ l, f x = some (g x)) :
    l.mapM f = some (l.map g) := by
  induction l with
  | nil => rfl
  | cons a l ih => rw [List.mapM_cons, h a (by simp), ih fun x hx => h x (by simp [hx])]; rfl

theorem foldlM_add {K : Type} [AddMonoid K] {shape : List Nat} (ts : List (Tensor K)) (hts : ∀ t ∈ ts, t.shape = shape) (acc : Tensor K)
    (hacc : acc.shape = shape) :
    ∃ t, ts.foldlM (fun acc t => acc.add t) acc = some t ∧ t.shape = shape ∧
      ∀ i, t.get i = acc.get i + (ts.map (·.get i)).sum := by
  induction ts generalizing acc with
  | nil => exact ⟨acc, rfl, hacc, by simp⟩
  | cons a ts ih =>
    obtain ⟨t, h1, h2, h3⟩ := ih (fun t ht => hts t (by simp [ht])) ⟨acc.shape, fun i => acc.get i + a.get i⟩ hacc
    refine ⟨t, ?_, h2, ?_⟩
    · rw [List.foldlM_cons, Tensor.add, if_pos (by rw [hacc, hts a (by simp)])]
      exact h1
    · intro i; rw [h3]; simp [add_assoc]

theorem symmetrySum_spec {K : Type} [AddMonoid K] (k : Tensor K) {axes : List Nat} (hnd : axes.Nodup) (hlt : ∀ i ∈ axes, i < k.ndim)
    (hsh : ∀ i ∈ axes, ∀ j ∈ axes, k.shape.getD i 0 = k.shape.getD j 0) :
    ∃ t, symmetrySum k axes = some t ∧ t.shape = k.shape ∧
      ∀ idx, t.get idx = (axes.permutations'.map fun p => k.get (permIdx axes p k.ndim idx)).sum := by
  have h1 : ∀ p ∈ axes.permutations', k.moveaxis axes p = some (k.transpose (moveOrder k.ndim axes p)) := by
    intro p hp
    obtain ⟨t, ht, _⟩ := moveaxis_perm k (List.mem_permutations'.1 hp) hnd hlt hsh
    rw [ht]
    rw [Tensor.moveaxis] at ht
    split at ht
    · exact ht.symm
    · cases ht
  obtain ⟨t, t1, t2, t3⟩ := foldlM_add (shape := k.shape) (axes.permutations'.map fun p => k.transpose (moveOrder k.ndim axes p))
    (by
      intro t ht
      obtain ⟨p, hp, rfl⟩ := List.mem_map.1 ht
      obtain ⟨t, ht, hs, _⟩ := moveaxis_perm k (List.mem_permutations'.1 hp) hnd hlt hsh
      rw [h1 p hp, Option.some_inj] at ht
      rw [ht, hs]) (Tensor.zeros k.shape) rfl
  refine ⟨t, ?_, t2, ?_⟩
  · rw [symmetrySum, mapM_some h1]
    exact t1
  · intro idx
    rw [t3]
    simp only [Tensor.zeros, zero_add, List.map_map]
    congr 1
    apply List.map_congr_left
    intro p hp
    obtain ⟨t, ht, _, hg⟩ := moveaxis_perm k (List.mem_permutations'.1 hp) hnd hlt hsh
    rw [h1 p hp, Option.some_inj] at ht
    rw [Function.comp, ht, hg]

/-! ### reindexing sums -/

theorem permIdx_length (axes p : List Nat) (n : Nat) (idx : List Nat) : (permIdx axes p n idx).length = n := by
  simp [permIdx]

theorem permIdx_getD (axes p : List Nat) (n : Nat) (idx : List Nat) {i : Nat} (hi : i < n) :
    (permIdx axes p n idx).getD i 0 = idx.getD (permPos axes p i) 0 := by
  rw [getD_lt _ _ (by simpa [permIdx] using hi)]
  simp [permIdx]

theorem list_ext_getD {l l' : List Nat} (hl : l.length = l'.length) (h : ∀ i < l.length, l.getD i 0 = l'.getD i 0) :
    l = l' := by
  apply List.ext_getElem hl
  intro i h1 h2
  have := h i h1
  rwa [getD_lt _ _ h1, getD_lt _ _ h2] at this

theorem permIdx_inv {axes p : List Nat} (hp : p.Perm axes) (hnd : axes.Nodup) {n : Nat} (hlt : ∀ a ∈ axes, a < n)
    {idx : List Nat} (hl : idx.length = n) : permIdx p axes n (permIdx axes p n idx) = idx := by
  apply list_ext_getD (by simp [permIdx, hl])
  intro i hi
  rw [permIdx_length] at hi
  rw [permIdx_getD _ _ _ _ hi, permIdx_getD _ _ _ _ (permPos_lt hp.symm (fun a ha => hlt a (hp.mem_iff.1 ha)) hi),
    permPos_inv hp.symm (hp.nodup_iff.2 hnd)]

theorem permIdx_valid {axes p : List Nat} (hp : p.Perm axes) {shape : List Nat} (hlt : ∀ a ∈ axes, a < shape.length)
    (hsh : ∀ i ∈ axes, ∀ j ∈ axes, shape.getD i 0 = shape.getD j 0) {idx : List Nat} (h : Valid idx shape) :
    Valid (permIdx axes p shape.length idx) shape := by
  rw [valid_iff]
  refine ⟨permIdx_length _ _ _ _, ?_⟩
  intro i hi
  rw [permIdx_getD _ _ _ _ hi]
  have := h.get (permPos_lt hp hlt hi)
  by_cases hm : i ∈ axes
  · rwa [hsh _ (permPos_mem hp hm) _ hm] at this
  · rwa [show permPos axes p i = i by rw [permPos, if_neg hm]] at this ⊢

/-! ### composing permutations -/

theorem permPos_map {axes p q : List Nat} (hp : p.Perm axes) (hnd : axes.Nodup) (i : Nat) :
    permPos axes (p.map (permPos axes q)) i = permPos axes q (permPos axes p i) := by
  by_cases hi : i ∈ axes
  · have hlt : axes.idxOf i < p.length := by rw [hp.length_eq]; exact List.idxOf_lt_length_of_mem hi
    rw [permPos, if_pos hi, permPos.eq_1 axes p, if_pos hi, getD_lt _ _ (by simpa using hlt), getD_lt _ _ hlt, List.getElem_map]
  · rw [permPos, if_neg hi, permPos.eq_1 axes p, if_neg hi, permPos, if_neg hi]

theorem map_permPos {axes q : List Nat} (hq : q.Perm axes) (hnd : axes.Nodup) : axes.map (permPos axes q) = q := by
  apply List.ext_getElem
  · simp [hq.length_eq]
  · intro i h1 h2
    have h3 : i < axes.length := by simpa using h1
    rw [List.getElem_map, permPos, if_pos (List.getElem_mem _), hnd.idxOf_getElem, getD_lt _ _ h2]

theorem permIdx_permIdx {axes p q : List Nat} (hp : p.Perm axes) (hnd : axes.Nodup) {n : Nat} (hlt : ∀ a ∈ axes, a < n)
    (idx : List Nat) :
    permIdx axes p n (permIdx axes q n idx) = permIdx axes (p.map (permPos axes q)) n idx := by
  simp only [permIdx]
  apply List.map_congr_left
  intro i hi
  have hi' := permPos_lt hp hlt (List.mem_range.1 hi)
  have := permIdx_getD axes q n idx hi'
  rw [permIdx] at this
  rw [this, permPos_map hp hnd]

theorem sum_perms_invariant (f : List Nat → Int) {axes q : List Nat} (hq : q.Perm axes) (hnd : axes.Nodup) {n : Nat}
    (hlt : ∀ a ∈ axes, a < n) (idx : List Nat) :
    (axes.permutations'.map fun p => f (permIdx axes p n (permIdx axes q n idx))).sum =
      (axes.permutations'.map fun p => f (permIdx axes p n idx)).sum := by
  have e1 : (axes.permutations'.map fun p => f (permIdx axes p n (permIdx axes q n idx))) =
      (axes.permutations'.map (List.map (permPos axes q))).map fun p => f (permIdx axes p n idx) := by
    rw [List.map_map]
    apply List.map_congr_left
    intro p hp
    rw [Function.comp, permIdx_permIdx (List.mem_permutations'.1 hp) hnd hlt]
  rw [e1, List.map_permutations', map_permPos hq hnd]
  exact ((hq.permutations').map _).sum_eq

theorem sumIdx_perm {M : Type*} [AddCommMonoid M] {axes p : List Nat} (hp : p.Perm axes) (hnd : axes.Nodup)
    {shape : List Nat} (hlt : ∀ a ∈ axes, a < shape.length)
    (hsh : ∀ i ∈ axes, ∀ j ∈ axes, shape.getD i 0 = shape.getD j 0) (f : List Nat → M) :
    sumIdx shape (fun idx => f (permIdx axes p shape.length idx)) = sumIdx shape f := by
  have hlt' : ∀ a ∈ p, a < shape.length := fun a ha => hlt a (hp.mem_iff.1 ha)
  have hsh' : ∀ i ∈ p, ∀ j ∈ p, shape.getD i 0 = shape.getD j 0 :=
    fun i hi j hj => hsh i (hp.mem_iff.1 hi) j (hp.mem_iff.1 hj)
  rw [sumIdx_eq, sumIdx_eq]
  refine Finset.sum_nbij' (permIdx axes p shape.length) (permIdx p axes shape.length) ?_ ?_ ?_ ?_ ?_
  · intro i hi
    rw [List.mem_toFinset, mem_allIdx] at hi ⊢
    exact permIdx_valid hp hlt hsh hi
  · intro i hi
    rw [List.mem_toFinset, mem_allIdx] at hi ⊢
    exact permIdx_valid hp.symm hlt' hsh' hi
  · intro i hi
    rw [List.mem_toFinset, mem_allIdx] at hi
    exact permIdx_inv hp hnd hlt hi.length
  · intro i hi
    rw [List.mem_toFinset, mem_allIdx] at hi
    exact permIdx_inv hp.symm (hp.nodup_iff.2 hnd) hlt' hi.length
  · intro i _; rfl

theorem prodAt_perm {R : Type} [CommRing R] {axes p : List Nat} (hp : p.Perm axes) (hnd : axes.Nodup)
    {n : Nat} (hlt : ∀ a ∈ axes, a < n) {xs : List (List R)} (hxs : xs.length = n)
    (heq : ∀ a ∈ axes, ∀ b ∈ axes, xs.getD a [] = xs.getD b []) {idx : List Nat} (hidx : idx.length = n) :
    prodAt xs (permIdx axes p n idx) = prodAt xs idx := by
  rw [prodAt_eq_prod (by simp [permIdx, hxs]), prodAt_eq_prod (by omega), permIdx_length, hidx]
  refine Finset.prod_nbij' (permPos axes p) (permPos p axes) ?_ ?_ ?_ ?_ ?_
  · intro i hi
    rw [Finset.mem_range] at hi ⊢
    exact permPos_lt hp hlt hi
  · intro i hi
    rw [Finset.mem_range] at hi ⊢
    exact permPos_lt hp.symm (fun a ha => hlt a (hp.mem_iff.1 ha)) hi
  · intro i _; exact permPos_inv hp hnd i
  · intro i _; exact permPos_inv hp.symm (hp.nodup_iff.2 hnd) i
  · intro i hi
    rw [Finset.mem_range] at hi
    rw [permIdx_getD _ _ _ _ hi]
    by_cases hm : i ∈ axes
    · rw [heq i hm _ (permPos_mem hp hm)]
    · rw [show permPos axes p i = i by rw [permPos, if_neg hm]]

theorem permIdx_append {axes p : List Nat} {n : Nat} (hp : p.Perm axes) (hlt : ∀ a ∈ axes, a < n) {idx : List Nat}
    (hidx : idx.length = n) (o : Nat) : permIdx axes p (n + 1) (idx ++ [o]) = permIdx axes p n idx ++ [o] := by
  rw [permIdx, List.range_succ, List.map_append, permIdx]
  congr 1
  · apply List.map_congr_left
    intro i hi
    have := permPos_lt hp hlt (List.mem_range.1 hi)
    simp [List.getD_eq_getElem?_getD, List.getElem?_append, hidx, this]
  · have : n ∉ axes := fun h => absurd (hlt n h) (lt_irrefl n)
    simp [permPos, this, hidx, List.getD_eq_getElem?_getD]

/-! ### transfer from torsion-free rings -/
section Transfer
variable {R S : Type} [CommRing R] [CommRing S]

theorem getD_map_hom (φ : S →+* R) (l : List S) (i : Nat) : (l.map φ).getD i 0 = φ (l.getD i 0) := by
  simp only [List.getD_eq_getElem?_getD, List.getElem?_map]
  cases l[i]? <;> simp

theorem prodAt_hom (φ : S →+* R) (xs : List (List S)) (idx : List Nat) :
    prodAt (xs.map (·.map φ)) idx = φ (prodAt xs idx) := by
  induction xs generalizing idx with
  | nil => simp [prodAt]
  | cons x xs ih =>
    cases idx with
    | nil => simp [prodAt]
    | cons i idx => rw [List.map_cons, prodAt_cons, prodAt_cons, ih, getD_map_hom, map_mul]

theorem sumIdx_hom (φ : S →+* R) (s : List Nat) (f : List Nat → S) : φ (sumIdx s f) = sumIdx s fun i => φ (f i) := by
  simp only [sumIdx_eq, map_sum]

theorem evalAt_hom (φ : S →+* R) (op : Operator Int) (xs : List (List S)) (o : Nat) :
    (op.cast R).evalAt (xs.map (·.map φ)) o = φ ((op.cast S).evalAt xs o) := by
  rw [evalAt_eq, evalAt_eq, sumIdx_hom]
  apply sumIdx_congr
  intro idx _
  simp [prodAt_hom]

/-- An identity between operators that holds over all domains of characteristic zero, for inputs that are equal at the
given axes, holds over all commutative rings. -/
theorem evalAt_transfer {f g : Operator Int} {axes : List Nat} (o n : Nat)
    (h : ∀ (S : Type) [CommRing S] [IsDomain S] [CharZero S] (xs : List (List S)), xs.length = n →
      (∀ a ∈ axes, ∀ b ∈ axes, xs.getD a [] = xs.getD b []) → (f.cast S).evalAt xs o = (g.cast S).evalAt xs o)
    (xs : List (List R)) (hn : xs.length = n) (heq : ∀ a ∈ axes, ∀ b ∈ axes, xs.getD a [] = xs.getD b []) :
    (f.cast R).evalAt xs o = (g.cast R).evalAt xs o := by
  let φ : MvPolynomial R ℤ →+* R := MvPolynomial.eval₂Hom (Int.castRingHom R) id
  have key : (xs.map (·.map (MvPolynomial.X (R := ℤ)))).map (·.map φ) = xs := by
    rw [List.map_map]
    conv_rhs => rw [← List.map_id xs]
    apply List.map_congr_left
    intro x _
    simp only [Function.comp, List.map_map, id]
    conv_rhs => rw [← List.map_id x]
    apply List.map_congr_left
    intro r _
    simp [φ]
  rw [← key, evalAt_hom, evalAt_hom]
  congr 1
  apply h _ _ (by simpa using hn)
  intro a ha b hb
  have e : ∀ i, (xs.map (·.map (MvPolynomial.X (R := ℤ)))).getD i [] = (xs.getD i []).map MvPolynomial.X := by
    intro i
    simp only [List.getD_eq_getElem?_getD, List.getElem?_map]
    cases xs[i]? <;> simp
  rw [e, e, heq a ha b hb]

end Transfer

/-! ### the symmetry operation -/
section Symm
variable {A : Alg}

theorem pyMatch_const {α : Type} [DecidableEq α] {l : List α} (hne : l ≠ []) {a : α} (h : ∀ x ∈ l, x = a) :
    pyMatch l = some a := by
  cases l with
  | nil => exact absurd rfl hne
  | cons x l =>
    have hx := h x (by simp)
    subst hx
    rw [pyMatch, if_pos]
    rw [List.all_eq_true]
    intro y hy
    simp [h y (by simp [hy])]

theorem evalAt_congr {R : Type} [CommRing R] {f g : Operator Int} (hs : f.kernel.shape.dropLast = g.kernel.shape.dropLast)
    {o : Nat} (h : ∀ idx, Valid idx g.kernel.shape.dropLast → f.kernel.get (idx ++ [o]) = g.kernel.get (idx ++ [o]))
    (xs : List (List R)) : (f.cast R).evalAt xs o = (g.cast R).evalAt xs o := by
  rw [evalAt_eq, evalAt_eq, cast_shape, cast_shape, hs]
  apply sumIdx_congr
  intro idx hi
  rw [cast_get, cast_get, h idx hi]

theorem symmetry_pre {op : Operator Int} (h : WfOp A op) {axes : List Nat} (hne : axes ≠ []) (hnd : axes.Nodup)
    (hlt : ∀ a ∈ axes, a < op.inputs.length) {T : SubSpace} (hT : ∀ a ∈ axes, op.inputs[a]? = some T) :
    ∃ s : Operator Int, op.symmetry A axes = s.squeeze A ∧ WfOp A s ∧ s.axes = op.axes ∧
      ((∀ idx, Valid idx op.kernel.shape → s.kernel.get idx * (axes.permutations'.length : Int) =
          (axes.permutations'.map fun p => op.kernel.get (permIdx axes p op.kernel.ndim idx)).sum) ∨
        ((∃ idx, Valid idx op.kernel.shape ∧ ¬ (axes.permutations'.length : Int) ∣
            (axes.permutations'.map fun p => op.kernel.get (permIdx axes p op.kernel.ndim idx)).sum) ∧
          ∀ idx, Valid idx op.kernel.shape → (s.kernel.get idx = op.kernel.get idx ∧
          ∃ i, Valid i op.kernel.shape.dropLast ∧ (axes.permutations'.map fun p =>
            op.kernel.get (permIdx axes p op.kernel.ndim (i ++ [idx.getLastD 0]))).sum ≠ 0) ∨
          s.kernel.get idx = 0)) ∧
      ∀ (R : Type) [CommRing R] (xs : List (List R)), xs.length = op.inputs.length →
        (∀ a ∈ axes, ∀ b ∈ axes, xs.getD a [] = xs.getD b []) →
        ∀ o < op.output.blades.length, (s.cast R).evalAt xs o = (op.cast R).evalAt xs o := by
  have hndim : op.kernel.ndim = op.inputs.length + 1 := by rw [Tensor.ndim, h.shape_eq]; simp
  have hshd : ∀ a ∈ axes, op.kernel.shape.getD a 0 = T.blades.length := by
    intro a ha
    rw [h.shape_eq, List.getD_eq_getElem?_getD, List.getElem?_append_left (by simpa using hlt a ha), List.getElem?_map,
      hT a ha]
    simp
  have hsh : ∀ i ∈ axes, ∀ j ∈ axes, op.kernel.shape.getD i 0 = op.kernel.shape.getD j 0 :=
    fun i hi j hj => by rw [hshd i hi, hshd j hj]
  obtain ⟨k, k1, k2, k3⟩ := symmetrySum_spec op.kernel hnd (fun i hi => by have := hlt i hi; omega) hsh
  have hmapM : axes.mapM (op.axes[·]?) = some (axes.map fun _ => T) := by
    apply mapM_some
    intro a ha
    rw [h.axes_eq, List.getElem?_append_left (hlt a ha), hT a ha]
  have hmatch : pyMatch (axes.map fun _ => T) = some T :=
    pyMatch_const (by simpa using hne) (by intro x hx; obtain ⟨_, _, rfl⟩ := List.mem_map.1 hx; rfl)
  set P : Int := (axes.permutations'.length : Int) with hP
  have hP0 : P ≠ 0 := by
    rw [hP, length_permutations']; exact_mod_cast (Nat.factorial_pos _).ne'
  set exact_ := (allIdx k.shape).all fun i => decide ((k.map (Int.fdiv · P)).get i * P = k.get i) with hex
  set final : Tensor Int := if exact_ then k.map (Int.fdiv · P)
    else { shape := op.kernel.shape
           get := fun idx => op.kernel.get idx * (if k.anyInputs (idx.getLastD 0) then 1 else 0) } with hfin
  have hfs : final.shape = op.kernel.shape := by
    rw [hfin]; split
    · simp [Tensor.map, k2]
    · rfl
  refine ⟨⟨final, op.axes⟩, ?_, ⟨h.ne, by rw [← h.shape]; exact hfs, h.sub⟩, rfl, ?_, ?_⟩
  · simp only [Operator.symmetry, hmapM, hmatch, k1, Option.bind_eq_bind, Option.bind_some, Option.pure_def]
    rfl
  · cases he : exact_ with
    | true =>
      left
      intro idx hidx
      simp only [hfin, he, if_true]
      rw [he] at hex
      have := List.all_eq_true.1 hex.symm idx (by rw [mem_allIdx, k2]; exact hidx)
      rw [decide_eq_true_eq] at this
      rw [this, k3]
    | false =>
      right
      constructor
      · rw [he] at hex
        obtain ⟨i, hi, hi'⟩ := List.all_eq_false.1 hex.symm
        rw [mem_allIdx, k2] at hi
        refine ⟨i, hi, ?_⟩
        rintro ⟨c, hc⟩
        apply hi'
        rw [decide_eq_true_eq]
        simp only [Tensor.map, k3, hc]
        rw [Int.mul_fdiv_cancel_left _ hP0, mul_comm]
      intro idx hidx
      simp only [hfin, he, Bool.false_eq_true, if_false]
      by_cases ha : k.anyInputs (idx.getLastD 0) = true
      · left
        rw [if_pos ha, mul_one]
        refine ⟨rfl, ?_⟩
        obtain ⟨i, hi, hi'⟩ := (anyInputs_iff _ _).1 ha
        rw [k2] at hi
        exact ⟨i, hi, by rwa [k3] at hi'⟩
      · right; rw [if_neg ha, mul_zero]
  · intro R _ xs hxs heq o ho
    refine evalAt_transfer (f := ⟨final, op.axes⟩) (g := op) o op.inputs.length ?_ xs hxs heq
    clear xs hxs heq
    intro S _ _ _ xs hxs heq
    -- evaluation of the sum over permutations
    have hk : ((⟨k, op.axes⟩ : Operator Int).cast S).evalAt xs o = (P : S) * (op.cast S).evalAt xs o := by
      have e1 : (P : S) * (op.cast S).evalAt xs o = (axes.permutations'.map fun _ => (op.cast S).evalAt xs o).sum := by
        rw [List.map_const', List.sum_replicate, nsmul_eq_mul, hP]; simp
      rw [e1, evalAt_eq]
      have e2 : ∀ idx, Valid idx op.kernel.shape.dropLast →
          ((⟨k, op.axes⟩ : Operator Int).cast S).kernel.get (idx ++ [o]) * prodAt xs idx =
          (axes.permutations'.map fun p => (op.kernel.get (permIdx axes p op.inputs.length idx ++ [o]) : S) *
            prodAt xs (permIdx axes p op.inputs.length idx)).sum := by
        intro idx hidx
        have hl : idx.length = op.inputs.length := by have := hidx.length; rw [h.shape_in] at this; simpa using this
        rw [cast_get]
        simp only [k3]
        rw [Int.cast_list_sum, List.map_map, ← List.sum_map_mul_right]
        congr 1
        apply List.map_congr_left
        intro p hp
        have hp' := List.mem_permutations'.1 hp
        rw [Function.comp, hndim, permIdx_append hp' hlt hl, prodAt_perm hp' hnd hlt hxs heq hl]
      rw [cast_shape, show k.shape = op.kernel.shape from k2, sumIdx_congr e2]
      have e3 : ∀ l : List (List Nat), (∀ p ∈ l, p.Perm axes) → sumIdx op.kernel.shape.dropLast (fun idx =>
          (l.map fun p => (op.kernel.get (permIdx axes p op.inputs.length idx ++ [o]) : S) *
            prodAt xs (permIdx axes p op.inputs.length idx)).sum) = (l.map fun _ => (op.cast S).evalAt xs o).sum := by
        intro l hl
        induction l with
        | nil => simp [sumIdx_zero]
        | cons p l ih =>
          simp only [List.map_cons, List.sum_cons]
          rw [sumIdx_add, ih fun q hq => hl q (by simp [hq])]
          congr 1
          have hlen : op.kernel.shape.dropLast.length = op.inputs.length := by rw [h.shape_in]; simp
          have := sumIdx_perm (hl p (by simp)) hnd (shape := op.kernel.shape.dropLast) (by rwa [hlen]) (by
            intro i hi j hj
            have e : ∀ i ∈ axes, op.kernel.shape.dropLast.getD i 0 = op.kernel.shape.getD i 0 := by
              intro i hi
              conv_rhs => rw [h.shape_eq]
              rw [h.shape_in, List.getD_eq_getElem?_getD, List.getD_eq_getElem?_getD,
                List.getElem?_append_left (by simpa using hlt i hi)]
            rw [e i hi, e j hj, hsh i hi j hj]) (fun idx => (op.kernel.get (idx ++ [o]) : S) * prodAt xs idx)
          rw [hlen] at this
          exact this
      exact e3 _ fun p hp => List.mem_permutations'.1 hp
    have hPS : (P : S) ≠ 0 := by exact_mod_cast hP0
    have hvo : ∀ idx, Valid idx op.kernel.shape.dropLast → Valid (idx ++ [o]) op.kernel.shape := by
      intro idx hidx
      rw [h.shape_in] at hidx
      rw [h.shape_eq]
      exact hidx.append (by simp [Valid, ho])
    cases he : exact_ with
    | true =>
      apply mul_left_cancel₀ hPS
      rw [← hk, evalAt_eq, evalAt_eq, ← sumIdx_mul_left]
      simp only [cast_shape, hfs, k2]
      apply sumIdx_congr
      intro idx hidx
      rw [he] at hex
      have := List.all_eq_true.1 hex.symm (idx ++ [o]) (by rw [mem_allIdx, k2]; exact hvo idx hidx)
      rw [decide_eq_true_eq] at this
      rw [cast_get, cast_get]
      simp only [hfin, he, if_true]
      rw [← this]
      push_cast
      ring
    | false =>
      by_cases ha : k.anyInputs o = true
      · apply evalAt_congr
        · simp only [hfs]
        · intro idx hidx
          simp only [hfin, he, Bool.false_eq_true, if_false, List.getLastD_concat, ha, if_true, mul_one]
      · have hz : (op.cast S).evalAt xs o = 0 := by
          have : (P : S) * (op.cast S).evalAt xs o = 0 := by
            rw [← hk, evalAt_eq]
            refine Eq.trans (sumIdx_congr fun idx hidx => ?_) (sumIdx_zero _)
            rw [cast_get]
            have hh : ¬ ∃ i, Valid i k.shape.dropLast ∧ k.get (i ++ [o]) ≠ 0 := by rwa [← anyInputs_iff]
            push Not at hh
            simp only [hh idx hidx]; simp
          exact (mul_eq_zero.1 this).resolve_left hPS
        rw [hz, evalAt_eq]
        refine Eq.trans (sumIdx_congr fun idx hidx => ?_) (sumIdx_zero _)
        rw [cast_get]
        simp [hfin, he, ha]

end Symm
end Verif
