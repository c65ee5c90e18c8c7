import Verif.Proofs.Products
import Verif.Proofs.SparseVector
import Verif.Props.Backend
/-! # Operators for sparse matrices; bound operators -/
namespace Verif
open Model Spec Props

variable {R : Type} [CommRing R] {A : Alg}

theorem realises_bin {f : Arg Int → Arg Int → Option (Operator Int)} {B : ∀ (R : Type) [CommRing R], Cl A R → Cl A R → Cl A R} (h : BinSem A f B)
    (β : Cl A R →ₗ[R] Cl A R →ₗ[R] Cl A R) (hβ : ∀ x y, B R x y = β x y) : Realises A (fun S T => f (.sub S) (.sub T)) β := by
  intro S T hS hT
  obtain ⟨o, o1, o2, o3, o4⟩ := id (h (argSem_sub hS) (argSem_sub hT))
  refine ⟨o, o1, o2, o3, fun x y hx hy hxs hys => ?_⟩
  subst hxs hys
  rw [← o1, ← hβ]
  exact bin_gives h hx hy

theorem realises_product (hA : WfAlg A) : Realises (R := R) A (fun S T => Factory.product A (.sub S) (.sub T)) (LinearMap.mul R _) :=
  realises_bin (product_bin hA) _ fun _ _ => rfl

theorem realises_wedge (hA : WfAlg A) : Realises (R := R) A (fun S T => Factory.wedge A (.sub S) (.sub T)) (gradedProductₗ A R fun i j k => i + j = k) :=
  realises_bin (wedge_bin hA) _ fun _ _ => (gradedProductₗ_apply _ _ _).symm

theorem realises_inner (hA : WfAlg A) :
    Realises (R := R) A (fun S T => Factory.inner A (.sub S) (.sub T)) (gradedProductₗ A R fun i j k => i + k = j ∨ j + k = i) :=
  realises_bin (inner_bin hA) _ fun _ _ => (gradedProductₗ_apply _ _ _).symm

theorem realises_regressive (hA : WfAlg A) : Realises (R := R) A (fun S T => Factory.regressive A (.sub S) (.sub T))
    (((gradedProductₗ A R fun i j k => i + j = k).compl₁₂ (rhMap A R) (rhMap A R)).compr₂ (rhInv A R)) :=
  realises_bin (regressive_bin hA) _ fun x y => by
    rw [LinearMap.compr₂_apply, LinearMap.compl₁₂_apply, gradedProductₗ_apply]

theorem realises_commutator (hA : WfAlg A) : Realises (R := R) A (fun S T => Factory.commutator A (.sub S) (.sub T)) (comm A R) := by
  intro S T hS hT
  obtain ⟨o, o1, o2, o3, o4⟩ := id (commutator_sem hA hS hT)
  refine ⟨o, o1, o2, o3, fun x y hx hy hxs hys => ?_⟩
  subst hxs hys
  rw [← o1]
  exact call_gives2 (commutator_sem hA hx.sub hy.sub) hx hy trivial

theorem addEntry_keys (e : Entry R) (l : List (Entry R)) :
    (∃ f ∈ addEntry e l, f.1 = e.1 ∧ f.2.1 = e.2.1) ∧ ∀ g ∈ l, ∃ f ∈ addEntry e l, f.1 = g.1 ∧ f.2.1 = g.2.1 := by
  induction l with
  | nil => simp [addEntry]
  | cons c l ih =>
    rw [addEntry]
    split
    · exact ⟨⟨e, by simp, rfl, rfl⟩, fun g hg => ⟨g, by simp only [List.mem_cons] at hg ⊢; exact .inr hg, rfl, rfl⟩⟩
    · split
      · rename_i h
        refine ⟨⟨_, List.mem_cons_self, h.1.symm, h.2.symm⟩, fun g hg => ?_⟩
        rcases List.mem_cons.1 hg with rfl | hg
        · exact ⟨_, List.mem_cons_self, rfl, rfl⟩
        · exact ⟨g, by simp [hg], rfl, rfl⟩
      · obtain ⟨⟨f, f1, f2⟩, h2⟩ := ih
        refine ⟨⟨f, by simp [f1], f2⟩, fun g hg => ?_⟩
        rcases List.mem_cons.1 hg with rfl | hg
        · exact ⟨_, List.mem_cons_self, rfl, rfl⟩
        · obtain ⟨f, f1, f2⟩ := h2 g hg
          exact ⟨f, by simp [f1], f2⟩

theorem construct_keys {m n : Nat} {S : SubSpace} {l : List (Entry R)} {Z : GAMatrix R} (h : GAMatrix.construct m n S l = some Z) :
    ∀ e ∈ l, ∃ f ∈ Z.entries, f.1 = e.1 ∧ f.2.1 = e.2.1 := by
  rw [GAMatrix.construct] at h
  split at h
  · cases h
  cases h
  have key : ∀ (l acc : List (Entry R)), (∀ e ∈ l, ∃ f ∈ l.foldl (fun acc e => addEntry e acc) acc, f.1 = e.1 ∧ f.2.1 = e.2.1) ∧
      ∀ e ∈ acc, ∃ f ∈ l.foldl (fun acc e => addEntry e acc) acc, f.1 = e.1 ∧ f.2.1 = e.2.1 := by
    intro l
    induction l with
    | nil => exact fun acc => ⟨by simp, fun e he => ⟨e, he, rfl, rfl⟩⟩
    | cons c l ih =>
      intro acc
      obtain ⟨h1, h2⟩ := ih (addEntry c acc)
      obtain ⟨⟨f, f1, f2, f3⟩, k⟩ := addEntry_keys c acc
      refine ⟨fun e he => ?_, fun e he => ?_⟩
      · rcases List.mem_cons.1 he with rfl | he
        · obtain ⟨g, g1, g2, g3⟩ := h2 f f1
          exact ⟨g, g1, g2.trans f2, g3.trans f3⟩
        · exact h1 e he
      · obtain ⟨f, f1, f2, f3⟩ := k e he
        obtain ⟨g, g1, g2, g3⟩ := h2 f f1
        exact ⟨g, g1, g2.trans f2, g3.trans f3⟩
  exact (key l []).1

theorem mapOp_keys {op : Option (Operator Int)} {M Z : GAMatrix R} {m n : Nat} {key : Entry R → Nat × Nat} {args : List (MV R)}
    (h : M.mapOp op m n key args = some Z) : ∀ e ∈ M.entries, ∃ f ∈ Z.entries, f.1 = (key e).1 ∧ f.2.1 = (key e).2 := by
  rw [GAMatrix.mapOp] at h
  simp only [Option.bind_eq_bind] at h
  obtain ⟨o, -, h⟩ := Option.bind_eq_some_iff.1 h
  obtain ⟨l, h1, h2⟩ := Option.bind_eq_some_iff.1 h
  have : ∀ (es : List (Entry R)) (l : List (Entry R)), (es.mapM fun e => (MV.call (some o) (⟨M.sub, e.2.2⟩ :: args)).bind fun z =>
      some ((key e).1, (key e).2, z.vals)) = some l → ∀ e ∈ es, ∃ f ∈ l, f.1 = (key e).1 ∧ f.2.1 = (key e).2 := by
    intro es
    induction es with
    | nil => simp
    | cons c es ih =>
      intro l hl e he
      rw [List.mapM_cons] at hl
      simp only [Option.bind_eq_bind] at hl
      obtain ⟨y, y1, hl⟩ := Option.bind_eq_some_iff.1 hl
      obtain ⟨t, t1, t2⟩ := Option.bind_eq_some_iff.1 hl
      cases t2
      rcases List.mem_cons.1 he with rfl | he
      · obtain ⟨z, -, hz⟩ := Option.bind_eq_some_iff.1 y1
        cases hz
        exact ⟨_, List.mem_cons_self, rfl, rfl⟩
      · obtain ⟨f, f1, f2⟩ := ih t t1 e he
        exact ⟨f, by simp [f1], f2⟩
  intro e he
  obtain ⟨f, f1, f2, f3⟩ := this _ _ h1 e he
  obtain ⟨g, g1, g2, g3⟩ := construct_keys h2 f f1
  exact ⟨g, g1, g2.trans f2, g3.trans f3⟩

variable {β : Cl A R →ₗ[R] Cl A R →ₗ[R] Cl A R}

/-- The operator of an entry, with its first input bound. -/
def IsBound (A : Alg) (β : Cl A R →ₗ[R] Cl A R →ₗ[R] Cl A R) (o : Operator Int) (S T : SubSpace) (v : List R) (q : Operator R) : Prop :=
  WfOp A q ∧ q.output = o.output ∧ q.inputs = [T] ∧
    (∀ y : MV R, WfMV A y → y.sub = T → einsumCallMV q [y] = MV.call (some o) [⟨S, v⟩, y]) ∧
    ∀ i < T.blades.length, ∀ j < o.output.blades.length,
      q.kernel.get [i, j] = coef A R (o.output.blades.getD j 0) (β (val A ⟨S, v⟩) (blade A R (T.blades.getD i 0)))

theorem partial_entry {o : Operator Int} {S T : SubSpace} (ho : WfOp A o) (hin : o.inputs = [S, T]) (hT : WfSub A T)
    (hg : ∀ x y : MV R, WfMV A x → WfMV A y → x.sub = S → y.sub = T → Gives A (MV.call (some o) [x, y]) (β (val A x) (val A y)))
    (hS : WfSub A S) {v : List R} (hv : v.length = S.blades.length) :
    ∃ q, (o.cast R).partialApply [(0, ⟨S, v⟩)] = some q ∧ IsBound A β o S T v q := by
  have ha : (o.cast R).arity = 2 := by
    change o.inputs.length = 2
    rw [hin]; rfl
  have hi : (o.cast R).inputs = [S, T] := hin
  have key := fun y : MV R => fun (hy : WfMV A y) (hyT : y.sub = T) =>
    C42_partial (wf_cast R ho) (by omega) (keys := [0]) (by simp) (by simp; omega) (by simp) (args := [⟨S, v⟩, y])
      (by rw [hi]; simp [hv, hy.len, hyT])
  have hu : ∀ i, WfMV A (⟨T, unitVec R T.blades.length i⟩ : MV R) := fun i => ⟨hT, unitVec_length _ _ _⟩
  obtain ⟨q, q1, q2, q3, q4, -⟩ := key _ (hu 0) rfl
  have hqi : q.inputs = [T] := by rw [q4, ha, hi]; rfl
  have hcall : ∀ y : MV R, WfMV A y → y.sub = T → einsumCallMV q [y] = MV.call (some o) [⟨S, v⟩, y] := by
    intro y hy hyT
    obtain ⟨q', q1', -, -, -, q5, -⟩ := key y hy hyT
    have hqq : q' = q := by
      have : some q' = some q := q1'.symm.trans q1
      simpa using this
    subst hqq
    rw [← call_eq_einsum ho (by change 1 ≤ (o.cast R).arity; omega) (by change (o.cast R).arity ≤ 25; omega) (by rw [hin]; simp [hv, hy.len, hyT]),
      ← q5 (by simp [ha]), ha]
    rfl
  refine ⟨q, q1, q2, q3, hqi, hcall, fun i hi' j hj => ?_⟩
  obtain ⟨z, z1, z2, z3⟩ := hg ⟨S, v⟩ ⟨T, unitVec R T.blades.length i⟩ ⟨hS, hv⟩ (hu i) rfl rfl
  have e := hcall _ (hu i) rfl
  rw [z1] at e
  have hqa : q.arity = 1 := by rw [Operator.arity, hqi]; rfl
  obtain ⟨z4, z5⟩ := call_output z1
  have hz : z.vals = q.eval [unitVec R T.blades.length i] := by
    rw [einsumCallMV, einsumCall_eq q2 (by omega) (by omega) (by rw [hqi]; simp [unitVec_length])] at e
    simp only [List.map_cons, List.map_nil, Option.bind_eq_bind, Option.bind_some, MV.construct] at e
    split at e
    · simp only [Option.some.injEq] at e
      rw [← e]
    · cases e
  have hax : q.axes = [T, o.output] := by rw [q2.axes_eq, hqi, q3]; rfl
  have hsh : q.kernel.shape = [T.blades.length, o.output.blades.length] := by rw [q2.shape, hax]; rfl
  have hb : val A (⟨T, unitVec R T.blades.length i⟩ : MV R) = blade A R (T.blades.getD i 0) := denote_unitVec hi'
  rw [← hb, ← z3, ← coeff_eq z2]
  have hmem : o.output.blades.getD j 0 ∈ z.sub.blades := by
    rw [z4, getD_lt _ _ hj]; exact List.getElem_mem hj
  rw [coeff_idxOf z2 hmem, z4, getD_lt _ _ hj, List.Nodup.idxOf_getElem ho.wf_output.nodup j hj, hz, Operator.eval, hsh]
  simp only [List.getLastD_cons, List.getLastD_nil, List.getD_eq_getElem?_getD, List.getElem?_map, List.getElem?_range hj, Option.map_some, Option.getD_some]
  rw [evalAt_eq, hsh]
  change _ = sumIdx [T.blades.length] _
  rw [sumIdx_single, Finset.sum_eq_single i]
  · have : prodAt [unitVec R T.blades.length i] [i] = 1 := by simp [prodAt, unitVec_getD R hi', hi', unitVec]
    rw [this, mul_one]
    rfl
  · intro k hk hki
    have : prodAt [unitVec R T.blades.length i] [k] = 0 := by
      have := unitVec_getD R (i := i) (Finset.mem_range.1 hk)
      rw [if_neg hki] at this
      simpa [prodAt] using this
    rw [this, mul_zero]
  · intro h
    exact absurd (Finset.mem_range.2 hi') h

theorem bind_spec {m n : Nat} {f : SubSpace → SubSpace → Option (Operator Int)} (hf : Realises A f β) {M : GAMatrix R} {P : Matrix (Fin m) (Fin n) (Cl A R)}
    (hM : IsMatrix A M P) {T : SubSpace} (hT : WfSub A T) :
    ∃ o l, f M.sub T = some o ∧ WfOp A o ∧ o.inputs = [M.sub, T] ∧ BoundMatrix.bind f M T = some ⟨M, o, l⟩ ∧
      List.Forall₂ (fun e q => IsBound A β o M.sub T e.2.2 q) M.entries l := by
  obtain ⟨o, o1, o2, o3, o4⟩ := hf M.sub T hM.sub hT
  obtain ⟨l, l1, l2⟩ := mapM_forall₂ (l := M.entries) (f := fun e => (o.cast R).partialApply [(0, ⟨M.sub, e.2.2⟩)])
    fun e he => partial_entry o2 o3 hT o4 hM.sub (hM.mem e he).2.2
  refine ⟨o, l, o1, o2, o3, ?_, l2⟩
  rw [BoundMatrix.bind, o1, Option.bind_eq_bind, Option.bind_some, l1]
  rfl

theorem mapM_zip {α γ δ : Type} {p : α → γ → Prop} {g : α → Option δ} {h : α × γ → Option δ} {l : List α} {l' : List γ} (hl : List.Forall₂ p l l')
    (hg : ∀ a ∈ l, ∀ b, p a b → h (a, b) = g a) : (l.zip l').mapM h = l.mapM g := by
  induction hl with
  | nil => rfl
  | cons hab _ ih =>
    rw [List.zip_cons_cons, List.mapM_cons, List.mapM_cons, hg _ (by simp) _ hab, ih fun a ha b => hg a (by simp [ha]) b]

theorem bound_matvec_eq {m n : Nat} {f : SubSpace → SubSpace → Option (Operator Int)} (hf : Realises A f β) {M : GAMatrix R}
    {P : Matrix (Fin m) (Fin n) (Cl A R)} (hM : IsMatrix A M P) {x : GAVector R} {v : Fin n → Cl A R} (hx : IsVector A x v) :
    (BoundMatrix.bind f M x.sub).bind (·.matvec x) = M.matvec f x := by
  obtain ⟨o, l, o1, o2, o3, b, hl⟩ := bind_spec hf hM hx.sub
  rw [b, Option.bind_some, BoundMatrix.matvec, GAMatrix.matvec, o1]
  simp only [Option.bind_eq_bind, Option.bind_some]
  split
  · rw [mapM_zip hl (g := fun e => do some (← MV.call (some o) [⟨M.sub, e.2.2⟩, ⟨x.sub, ← x.vals[e.2.1]?⟩]).vals)]
    · rfl
    intro e he q hq
    have hlt : e.2.1 < x.vals.length := by rw [hx.len]; exact (hM.mem e he).2.1
    simp only [List.getElem?_eq_getElem hlt, Option.bind_eq_bind, Option.bind_some]
    rw [hq.2.2.2.1 _ ⟨hx.sub, hx.lens _ (List.getElem_mem hlt)⟩ rfl]
  · rfl

theorem find_entry {M : List (Entry R)} (ho : M.Pairwise Before) {γ Y : Type} [AddCommMonoid Y] {p : Entry R → γ → Prop} {l : List γ} (hl : List.Forall₂ p M l)
    (i j : Nat) (g : γ → Y) (F : Entry R → Y) (hg : ∀ e b, e ∈ M → p e b → g b = F e) :
    (((M.zip l).find? fun q => q.1.1 = i ∧ q.1.2.1 = j).map fun q => g q.2).getD 0 =
      (M.map fun e => if e.1 = i ∧ e.2.1 = j then F e else 0).sum := by
  induction hl with
  | nil => simp
  | @cons e b M l heb hl ih =>
    obtain ⟨h1, h2⟩ := List.pairwise_cons.1 ho
    rw [List.zip_cons_cons, List.find?_cons, List.map_cons, List.sum_cons]
    by_cases h : e.1 = i ∧ e.2.1 = j
    · have : (M.map fun e => if e.1 = i ∧ e.2.1 = j then F e else 0).sum = 0 := by
        apply List.sum_eq_zero
        intro y hy
        obtain ⟨f, hf, rfl⟩ := List.mem_map.1 hy
        rw [if_neg]
        have := h1 f hf
        unfold Before at this
        omega
      simp [h, this, hg e b (by simp) heb]
    · simp only [h, decide_false, if_false, zero_add]
      exact ih h2 fun e b he => hg e b (by simp [he])

end Verif
