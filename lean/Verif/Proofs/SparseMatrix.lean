import Verif.Spec.SparseMatrix
import Verif.Proofs.Values
import Verif.Proofs.Factory3
/-! # Sparse matrices -/
namespace Verif
open Model Spec

section
variable {R : Type} [CommRing R] {A : Alg}

/-! ### sums over entries -/

theorem denote_add {S : SubSpace} {v w : List R} (hv : v.length = S.blades.length) (hw : w.length = S.blades.length) :
    denote A R S (List.zipWith (· + ·) v w) = denote A R S v + denote A R S w := by
  have := denote_linear (A := A) hv hw 1
  simpa using this

/-- Sum over the entries of a function of position and value. -/
def wsum {Y : Type} [AddCommMonoid Y] (A : Alg) (S : SubSpace) (H : Nat → Nat → Cl A R → Y) (l : List (Entry R)) : Y :=
  (l.map fun e => H e.1 e.2.1 (val A ⟨S, e.2.2⟩)).sum

theorem wsum_addEntry {Y : Type} [AddCommMonoid Y] {S : SubSpace} {H : Nat → Nat → Cl A R → Y} (hH : ∀ i j a b, H i j (a + b) = H i j a + H i j b)
    {e : Entry R} (he : e.2.2.length = S.blades.length) {l : List (Entry R)} (hl : ∀ f ∈ l, f.2.2.length = S.blades.length) :
    wsum A S H (addEntry e l) = H e.1 e.2.1 (val A ⟨S, e.2.2⟩) + wsum A S H l := by
  induction l with
  | nil => simp [addEntry, wsum]
  | cons f l ih =>
    rw [addEntry]
    split
    · simp [wsum]
    · split
      · rename_i h
        simp only [wsum, List.map_cons, List.sum_cons]
        have : val A ⟨S, List.zipWith (· + ·) f.2.2 e.2.2⟩ = val A ⟨S, f.2.2⟩ + val A (R := R) ⟨S, e.2.2⟩ := denote_add (hl f (by simp)) he
        rw [this, hH, h.1, h.2, add_assoc, add_left_comm]
      · have := ih fun g hg => hl g (by simp [hg])
        simp only [wsum, List.map_cons, List.sum_cons] at this ⊢
        rw [this, add_left_comm]

theorem addEntry_mem {p : Nat → Nat → Prop} {k : Nat} {e : Entry R} (he : p e.1 e.2.1 ∧ e.2.2.length = k) {l : List (Entry R)}
    (hl : ∀ f ∈ l, p f.1 f.2.1 ∧ f.2.2.length = k) : ∀ f ∈ addEntry e l, p f.1 f.2.1 ∧ f.2.2.length = k := by
  induction l with
  | nil => simpa [addEntry] using he
  | cons g l ih =>
    rw [addEntry]
    split
    · intro f hf
      rcases List.mem_cons.1 hf with rfl | hf
      exacts [he, hl f hf]
    · split
      · intro f hf
        rcases List.mem_cons.1 hf with rfl | hf
        · have := hl g (by simp)
          exact ⟨this.1, by simp [this.2, he.2]⟩
        · exact hl f (by simp [hf])
      · intro f hf
        rcases List.mem_cons.1 hf with rfl | hf
        · exact hl f (by simp)
        · exact ih (fun f hf => hl f (by simp [hf])) f hf

theorem addEntry_before {g e : Entry R} (h : Before g e) {l : List (Entry R)} (hl : ∀ f ∈ l, Before g f) : ∀ f ∈ addEntry e l, Before g f := by
  induction l with
  | nil => simpa [addEntry] using h
  | cons c l ih =>
    rw [addEntry]
    split
    · intro f hf
      rcases List.mem_cons.1 hf with rfl | hf
      exacts [h, hl f hf]
    · split
      · intro f hf
        rcases List.mem_cons.1 hf with rfl | hf
        · exact hl c (by simp)
        · exact hl f (by simp [hf])
      · intro f hf
        rcases List.mem_cons.1 hf with rfl | hf
        · exact hl f (by simp)
        · exact ih (fun f hf => hl f (by simp [hf])) f hf

theorem Before.trans {e f g : Entry R} (h : Before e f) (h' : Before f g) : Before e g := by
  unfold Before at *; omega

theorem addEntry_order {e : Entry R} {l : List (Entry R)} (hl : l.Pairwise Before) : (addEntry e l).Pairwise Before := by
  induction l with
  | nil => simp [addEntry]
  | cons c l ih =>
    obtain ⟨h1, h2⟩ := List.pairwise_cons.1 hl
    rw [addEntry]
    split
    · rename_i h
      exact List.pairwise_cons.2 ⟨fun f hf => by
        rcases List.mem_cons.1 hf with rfl | hf
        exacts [h, Before.trans h (h1 f hf)], hl⟩
    · split
      · exact List.pairwise_cons.2 ⟨h1, h2⟩
      · rename_i h h'
        exact List.pairwise_cons.2 ⟨addEntry_before (by unfold Before; omega) h1, ih h2⟩

theorem addEntry_ne (e : Entry R) (l : List (Entry R)) : addEntry e l ≠ [] := by
  cases l with
  | nil => simp [addEntry]
  | cons c l =>
    rw [addEntry]
    split
    · simp
    · split <;> simp

/-- What the constructor does to a list of entries. -/
theorem construct_spec {m n : Nat} {S : SubSpace} (hS : WfSub A S) {l : List (Entry R)} (hne : l ≠ [])
    (hl : ∀ e ∈ l, e.1 < m ∧ e.2.1 < n ∧ e.2.2.length = S.blades.length) {P : Matrix (Fin m) (Fin n) (Cl A R)}
    (hP : ∀ (i : Fin m) (j : Fin n), P i j = (l.map fun e => if e.1 = (i : Nat) ∧ e.2.1 = (j : Nat) then val A ⟨S, e.2.2⟩ else 0).sum) :
    ∃ Z, GAMatrix.construct m n S l = some Z ∧ Z.sub = S ∧ IsMatrix A Z P := by
  rw [GAMatrix.construct, if_neg hne]
  have key : ∀ (l acc : List (Entry R)), (∀ e ∈ l, (e.1 < m ∧ e.2.1 < n) ∧ e.2.2.length = S.blades.length) →
      (∀ e ∈ acc, (e.1 < m ∧ e.2.1 < n) ∧ e.2.2.length = S.blades.length) → acc.Pairwise Before →
      let z := l.foldl (fun acc e => addEntry e acc) acc
      (∀ e ∈ z, (e.1 < m ∧ e.2.1 < n) ∧ e.2.2.length = S.blades.length) ∧ z.Pairwise Before ∧ (l ≠ [] ∨ acc ≠ [] → z ≠ []) ∧
        ∀ i j : Nat, wsum A S (fun a b v => if a = i ∧ b = j then v else 0) z = wsum A S (fun a b v => if a = i ∧ b = j then v else 0) l +
          wsum A S (fun a b v => if a = i ∧ b = j then v else 0) acc := by
    intro l
    induction l with
    | nil =>
      intro acc _ h2 h3
      exact ⟨h2, h3, by simp, by simp [wsum]⟩
    | cons e l ih =>
      intro acc h1 h2 h3
      obtain ⟨k1, k2, k3, k4⟩ := ih (addEntry e acc) (fun f hf => h1 f (by simp [hf])) (addEntry_mem (p := fun a b => a < m ∧ b < n) (h1 e (by simp)) h2)
        (addEntry_order h3)
      refine ⟨k1, k2, fun _ => k3 (.inr (addEntry_ne _ _)), fun i j => ?_⟩
      rw [List.foldl_cons, k4, wsum_addEntry (fun a b u v => by split <;> simp) (h1 e (by simp)).2 fun f hf => (h2 f hf).2]
      simp only [wsum, List.map_cons, List.sum_cons]
      abel
  obtain ⟨k1, k2, k3, k4⟩ := key l [] (fun e he => ⟨⟨(hl e he).1, (hl e he).2.1⟩, (hl e he).2.2⟩) (by simp) (by simp)
  refine ⟨_, rfl, rfl, rfl, rfl, hS, fun e he => ⟨(k1 e he).1.1, (k1 e he).1.2, (k1 e he).2⟩, k2, k3 (.inl hne), fun i j => ?_⟩
  have := k4 i j
  simp only [wsum, List.map_nil, List.sum_nil, add_zero] at this
  rw [hP, ← this]

/-! ### mapping -/

theorem mapM_forall₂ {α β : Type} {f : α → Option β} {p : α → β → Prop} {l : List α} (h : ∀ x ∈ l, ∃ y, f x = some y ∧ p x y) :
    ∃ l', l.mapM f = some l' ∧ List.Forall₂ p l l' := by
  induction l with
  | nil => exact ⟨[], rfl, .nil⟩
  | cons a l ih =>
    obtain ⟨y, y1, y2⟩ := h a (by simp)
    obtain ⟨l', h1, h2⟩ := ih fun x hx => h x (by simp [hx])
    exact ⟨y :: l', by simp [y1, h1], .cons y2 h2⟩

theorem forall₂_sum {α β Y : Type} [AddCommMonoid Y] {p : α → β → Prop} {f : α → Y} {g : β → Y} {l : List α} {l' : List β} (h : List.Forall₂ p l l')
    (hfg : ∀ a b, p a b → f a = g b) : (l.map f).sum = (l'.map g).sum := by
  induction h with
  | nil => rfl
  | cons h _ ih => simp [hfg _ _ h, ih]

theorem forall₂_mem {α β : Type} {p : α → β → Prop} {l : List α} {l' : List β} (h : List.Forall₂ p l l') : ∀ b ∈ l', ∃ a ∈ l, p a b := by
  induction h with
  | nil => simp
  | cons h _ ih =>
    intro b hb
    rcases List.mem_cons.1 hb with rfl | hb
    · exact ⟨_, by simp, h⟩
    · obtain ⟨a, ha, hp⟩ := ih b hb
      exact ⟨a, by simp [ha], hp⟩

theorem call_output {o : Operator Int} {args : List (MV R)} {z : MV R} (h : MV.call (some o) args = some z) :
    z.sub = o.output ∧ z.vals.length = o.output.blades.length := by
  rw [MV.call, Option.bind_eq_bind, Option.bind_some] at h
  split at h
  · rw [MV.construct] at h
    split at h
    · cases h
      rename_i h
      exact ⟨rfl, h⟩
    · cases h
  · cases h

/-- Applying an operator to every entry, moving the entries to new positions. -/
theorem mapOp_spec {m n m' n' : Nat} {M : GAMatrix R} {P : Matrix (Fin m) (Fin n) (Cl A R)} (hM : IsMatrix A M P) {op : Option (Operator Int)} {o : Operator Int}
    (ho : op = some o) (hout : WfSub A o.output) {args : List (MV R)} {L : Cl A R →+ Cl A R}
    (hcall : ∀ x : MV R, WfMV A x → x.sub = M.sub → Gives A (MV.call (some o) (x :: args)) (L (val A x)))
    {key : Entry R → Nat × Nat} (hkey : ∀ e ∈ M.entries, (key e).1 < m' ∧ (key e).2 < n') (i' : Fin m' → Fin n' → Fin m) (j' : Fin m' → Fin n' → Fin n)
    (hij : ∀ e ∈ M.entries, ∀ (i : Fin m') (j : Fin n'), (key e).1 = (i : Nat) ∧ (key e).2 = (j : Nat) ↔ e.1 = (i' i j : Nat) ∧ e.2.1 = (j' i j : Nat)) :
    ∃ Z, M.mapOp op m' n' key args = some Z ∧ Z.sub = o.output ∧ IsMatrix A Z (Matrix.of fun i j => L (P (i' i j) (j' i j))) := by
  have h1 : ∀ e ∈ M.entries, ∃ y : Entry R, ((do
      let z ← MV.call (some o) (⟨M.sub, e.2.2⟩ :: args)
      some ((key e).1, (key e).2, z.vals)) : Option (Entry R)) = some y ∧
      (e ∈ M.entries ∧ y.1 = (key e).1 ∧ y.2.1 = (key e).2 ∧ y.2.2.length = o.output.blades.length ∧ val A ⟨o.output, y.2.2⟩ = L (val A ⟨M.sub, e.2.2⟩)) := by
    intro e he
    obtain ⟨z, z1, z2, z3⟩ := hcall ⟨M.sub, e.2.2⟩ ⟨hM.sub, (hM.mem e he).2.2⟩ rfl
    obtain ⟨z4, z5⟩ := call_output z1
    refine ⟨_, by rw [z1]; rfl, he, rfl, rfl, z5, ?_⟩
    rw [← z3, ← z4]
  obtain ⟨l, l1, l2⟩ := mapM_forall₂ h1
  rw [GAMatrix.mapOp, ho, Option.bind_eq_bind, Option.bind_some, l1, Option.bind_eq_bind, Option.bind_some]
  refine construct_spec hout ?_ ?_ ?_
  · intro h
    rw [h] at l2
    exact hM.ne (List.forall₂_nil_right_iff.1 l2)
  · intro y hy
    obtain ⟨e, -, he, k1, k2, k3, -⟩ := forall₂_mem l2 y hy
    rw [k1, k2]
    exact ⟨(hkey e he).1, (hkey e he).2, k3⟩
  · intro i j
    rw [Matrix.of_apply, hM.entry, map_list_sum, List.map_map]
    refine forall₂_sum l2 fun e y hy => ?_
    obtain ⟨he, k1, k2, -, k3⟩ := hy
    simp only [Function.comp]
    rw [k1, k2, k3, apply_ite L, map_zero]
    exact if_congr (hij e he i j).symm rfl rfl

/-! ### products -/

variable {S T : SubSpace} {β : Cl A R →ₗ[R] Cl A R →ₗ[R] Cl A R}

theorem row_sum {m n : Nat} {M : GAMatrix R} {P : Matrix (Fin m) (Fin n) (Cl A R)} (hM : IsMatrix A M P) (v : Nat → Cl A R) (i : Fin m) :
    ∑ j : Fin n, β (P i j) (v j) = (M.entries.map fun e => if e.1 = (i : Nat) then β (val A ⟨M.sub, e.2.2⟩) (v e.2.1) else 0).sum := by
  have key : ∀ l : List (Entry R), (∀ e ∈ l, e.2.1 < n) →
      ∑ j : Fin n, β ((l.map fun e => if e.1 = (i : Nat) ∧ e.2.1 = (j : Nat) then val A ⟨M.sub, e.2.2⟩ else 0).sum) (v j) =
        (l.map fun e => if e.1 = (i : Nat) then β (val A ⟨M.sub, e.2.2⟩) (v e.2.1) else 0).sum := by
    intro l
    induction l with
    | nil => intro _; simp
    | cons e l ih =>
      intro h
      simp only [List.map_cons, List.sum_cons, map_add, LinearMap.add_apply, Finset.sum_add_distrib]
      rw [ih fun f hf => h f (by simp [hf])]
      congr 1
      by_cases hi : e.1 = (i : Nat)
      · rw [if_pos hi, Finset.sum_eq_single ⟨e.2.1, h e (by simp)⟩]
        · simp [hi]
        · intro j _ hj
          rw [if_neg, map_zero, LinearMap.zero_apply]
          rintro ⟨-, h2⟩
          exact hj (Fin.ext h2.symm)
        · simp
      · rw [if_neg hi]
        exact Finset.sum_eq_zero fun j _ => by simp [hi]
  rw [← key M.entries fun e he => (hM.mem e he).2.1]
  exact Finset.sum_congr rfl fun j _ => by rw [hM.entry]

theorem pair_sum (i k : Nat) {a b : List (Entry R)} :
    ((GAMatrix.pairs a b).map fun p => if p.1.1 = i ∧ p.2.2.1 = k then β (val A ⟨S, p.1.2.2⟩) (val A ⟨T, p.2.2.2⟩) else 0).sum =
      (a.map fun e => if e.1 = i then β (val A ⟨S, e.2.2⟩) ((b.map fun g => if g.1 = e.2.1 ∧ g.2.1 = k then val A ⟨T, g.2.2⟩ else 0).sum) else 0).sum := by
  rw [GAMatrix.pairs]
  induction a with
  | nil => rfl
  | cons e a ih =>
    rw [List.flatMap_cons, List.map_append, List.sum_append, List.map_cons, List.sum_cons, ← ih]
    congr 1
    clear ih
    induction b with
    | nil => simp
    | cons g b ihb =>
      by_cases hg : g.1 = e.2.1
      · rw [List.filter_cons_of_pos (by simpa using hg)]
        simp only [List.map_cons, List.sum_cons, map_add, ihb]
        by_cases hi : e.1 = i
        · by_cases hk : g.2.1 = k <;> simp [hi, hk, hg]
        · simp [hi]
      · rw [List.filter_cons_of_neg (by simpa using hg), ihb]
        simp [hg]

theorem matmat_spec {m n k : Nat} {f : SubSpace → SubSpace → Option (Operator Int)} (hf : Realises A f β) {M N : GAMatrix R}
    {P : Matrix (Fin m) (Fin n) (Cl A R)} {Q : Matrix (Fin n) (Fin k) (Cl A R)} (hM : IsMatrix A M P) (hN : IsMatrix A N Q)
    (hne : GAMatrix.pairs M.entries N.entries ≠ []) :
    ∃ Z, M.matmat f N = some Z ∧ IsMatrix A Z (Matrix.of fun i l => ∑ j, β (P i j) (Q j l)) := by
  obtain ⟨o, o1, o2, o3, o4⟩ := hf M.sub N.sub hM.sub hN.sub
  have hmem : ∀ p ∈ GAMatrix.pairs M.entries N.entries, p.1 ∈ M.entries ∧ p.2 ∈ N.entries := by
    intro p hp
    obtain ⟨e, he, hp⟩ := List.mem_flatMap.1 hp
    obtain ⟨g, hg, rfl⟩ := List.mem_map.1 hp
    exact ⟨he, (List.mem_filter.1 hg).1⟩
  have h1 : ∀ p ∈ GAMatrix.pairs M.entries N.entries, ∃ y : Entry R, ((do
      some (p.1.1, p.2.2.1, (← MV.call (some o) [⟨M.sub, p.1.2.2⟩, ⟨N.sub, p.2.2.2⟩]).vals)) : Option (Entry R)) = some y ∧
      (p ∈ GAMatrix.pairs M.entries N.entries ∧ y.1 = p.1.1 ∧ y.2.1 = p.2.2.1 ∧ y.2.2.length = o.output.blades.length ∧
        val A ⟨o.output, y.2.2⟩ = β (val A ⟨M.sub, p.1.2.2⟩) (val A ⟨N.sub, p.2.2.2⟩)) := by
    intro p hp
    obtain ⟨z, z1, z2, z3⟩ := o4 ⟨M.sub, p.1.2.2⟩ ⟨N.sub, p.2.2.2⟩ ⟨hM.sub, (hM.mem _ (hmem p hp).1).2.2⟩ ⟨hN.sub, (hN.mem _ (hmem p hp).2).2.2⟩ rfl rfl
    obtain ⟨z4, z5⟩ := call_output z1
    refine ⟨(p.1.1, p.2.2.1, z.vals), by rw [z1]; rfl, hp, rfl, rfl, z5, ?_⟩
    rw [← z3, ← z4]
  obtain ⟨l, l1, l2⟩ := mapM_forall₂ h1
  rw [GAMatrix.matmat, if_pos ⟨by rw [hM.cols, hN.rows], hne⟩, o1, Option.bind_eq_bind, Option.bind_some, l1, Option.bind_eq_bind, Option.bind_some, hM.rows, hN.cols]
  suffices H : ∃ Z, GAMatrix.construct m k o.output l = some Z ∧ Z.sub = o.output ∧ IsMatrix A Z (Matrix.of fun i l => ∑ j, β (P i j) (Q j l)) by
    obtain ⟨Z, z1, -, z2⟩ := H
    exact ⟨Z, z1, z2⟩
  refine construct_spec o2.wf_output ?_ ?_ ?_
  · intro h
    rw [h] at l2
    exact hne (List.forall₂_nil_right_iff.1 l2)
  · intro y hy
    obtain ⟨p, -, hp, k1, k2, k3, -⟩ := forall₂_mem l2 y hy
    rw [k1, k2]
    exact ⟨(hM.mem _ (hmem p hp).1).1, (hN.mem _ (hmem p hp).2).2.1, k3⟩
  · intro i l'
    have hrow := row_sum (β := β) hM (fun j => (N.entries.map fun g => if g.1 = j ∧ g.2.1 = (l' : Nat) then val A ⟨N.sub, g.2.2⟩ else 0).sum) i
    simp only [← hN.entry] at hrow
    rw [Matrix.of_apply, hrow, ← pair_sum]
    refine forall₂_sum l2 fun p y hy => ?_
    obtain ⟨-, k1, k2, -, k3⟩ := hy
    rw [k1, k2, k3]

end
end Verif
