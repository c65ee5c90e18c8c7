import Verif.Proofs.Physics
/-! # Bodies made from a cloud of points -/
namespace Verif
open Model Spec Model.Factory Props

variable {A : Alg} {R : Type}

section
variable [CommRing R]

theorem within_grade {S : SubSpace} {k : Nat} (hS : IsSpace A S fun b => popcount b = k) {x : Cl A R} (hx : Within A S x) : gradePart A R k x = x := by
  obtain ⟨z, z1, z2, rfl⟩ := hx
  exact gradePart_val z1 fun b hb => ((hS.2 b).1 (z2 ▸ hb)).2

/-- The map of rates to momenta of one point. -/
theorem inertiaMap_unary (hA : WfAlg A) {S B : SubSpace} (hS : WfSub A S) (hB : WfSub A B) :
    ∃ o, Factory.inertia A (.sub S) (.sub B) = some o ∧ ∀ p : MV R, WfMV A p → p.sub = S → ∃ q, p.inertiaMap A B = some q ∧ Unary A q B o.output ∧
      ∀ x, Within A B x → opMap A q B o.output x = meet A R (val A p) (comm A R (val A p) x) := by
  have hsem := inertia_sem hA hS hB
  obtain ⟨op, o1, o2, o3, -⟩ := id hsem
  refine ⟨op, o1, ?_⟩
  rintro p hp rfl
  have ha : (op.cast R).arity = 3 := by
    change op.inputs.length = 3
    rw [o3]; rfl
  have hi : (op.cast R).inputs = [p.sub, p.sub, B] := o3
  have key : ∀ b : MV R, WfMV A b → b.sub = B → ∃ q, p.inertiaMap A B = some q ∧ WfOp A q ∧ q.output = op.output ∧ q.inputs = [B] ∧
      Gives A (einsumCallMV q [b]) (meet A R (val A p) (comm A R (val A p) (val A b))) := by
    rintro b hb rfl
    have hfit : [p, p, b].map (·.vals.length) = (op.cast R).inputs.map (·.blades.length) := by
      rw [hi]; simp [hp.len, hb.len]
    obtain ⟨q, q1, qw, qo, q2, q3, -⟩ := C42_partial (wf_cast R o2) (keys := [0, 1]) (args := [p, p, b]) (by omega) (by simp) (by simp [ha]) (by simp) hfit
    have hf : (List.range 3).filter (· ∉ [0, 1]) = [2] := by decide
    rw [ha, hf] at q2 q3
    refine ⟨q, ?_, qw, qo, ?_, ?_⟩
    · rw [MV.inertiaMap, o1, Option.bind_eq_bind, Option.bind_some]
      exact q1
    · rw [q2, hi]; rfl
    · have e : einsumCallMV q [b] = MV.call (Factory.inertia A (.sub p.sub) (.sub b.sub)) [p, p, b] := by
        rw [o1, ← call_eq_einsum o2 (by change 1 ≤ (op.cast R).arity; omega) (by change (op.cast R).arity ≤ 25; omega) hfit, ← q3 (by simp)]
        rfl
      have h1 := call_gives3 hsem hp hp hb (by intro i hi j hj; simp at hi hj; rcases hi with rfl | rfl <;> rcases hj with rfl | rfl <;> rfl)
      rw [e, meet_eq]
      exact h1
  obtain ⟨q, q1, qw, qo, qi, -⟩ := key (MV.default B) ⟨hB, by simp [MV.default]⟩ rfl
  have hax : q.axes = [B, op.output] := by rw [qw.axes_eq, qi, qo]; rfl
  have hq : Unary A q B op.output := ⟨hax, by rw [qw.shape, hax]; rfl, hB, qo ▸ qw.wf_output⟩
  refine ⟨q, q1, hq, fun x hx => ?_⟩
  obtain ⟨b, hb, hbs, rfl⟩ := hx
  obtain ⟨q', q1', -, -, -, z, z1, z2, z3⟩ := key b hb hbs
  cases q1.symm.trans q1'
  obtain ⟨z', z1', -, -, z3'⟩ := hq.call hb hbs
  cases z1.symm.trans z1'
  rw [← z3', z3]

end

section
variable [Field R] [DecidableEq R]

/-- What the constructor of bodies asserts. -/
theorem init_ok {b c : Body R} (h : b.init A = .ok c) : c = b ∧ A.evenGrade = some b.motor.sub ∧ A.bivector = some b.rate.sub ∧
    (∃ V, A.antivector = some V ∧ SubOf b.gravity.sub V) ∧ A.antibivector = some b.inertia.output ∧ A.bivector = some b.inertiaInv.output ∧
    A.scalar = some b.damping.sub := by
  unfold Body.init at h
  split at h
  swap
  · cases h
  rename_i ha
  cases h
  refine ⟨rfl, ?_⟩
  unfold Body.asserts at ha
  simp only [Option.bind_eq_bind, Option.bind_eq_some_iff, Option.some.injEq, Bool.and_eq_true, beq_iff_eq] at ha
  obtain ⟨E, e1, B, b1, V, v1, L, l1, B', b1', s, s1, ⟨⟨⟨⟨h1, h2⟩, h3⟩, h4⟩, h5⟩, h6⟩ := ha
  exact ⟨h1 ▸ e1, h2 ▸ b1, ⟨V, v1, contains_iff.1 h3⟩, h4 ▸ l1, h5 ▸ b1', h6 ▸ s1⟩

theorem lift_ok {α : Type} {r : Option α} {x : α} (h : lift r = .ok x) : r = some x := by
  cases r with
  | none => cases h
  | some y => cases h; rfl

/-- A rigid body whose inertia is that of the points `ps`. -/
structure Rigid (A : Alg) (b : Body R) (ps : List (Cl A R)) (B L : SubSpace) : Prop where
  two : 2 ≤ A.n
  bivector : A.bivector = some B
  antibivector : A.antibivector = some L
  spaceB : IsSpace A B fun b => popcount b = 2
  spaceL : IsSpace A L fun b => popcount b + 2 = A.n
  inertia : Unary A b.inertia B L
  inverse : Unary A b.inertiaInv L B
  points : ∀ p ∈ ps, gradePart A R (A.n - 1) p = p
  map : ∀ x, Within A B x → opMap A b.inertia B L x = (ps.map fun p => meet A R p (comm A R p x)).sum
  left : ∀ x, Within A B x → opMap A b.inertiaInv L B (opMap A b.inertia B L x) = x
  right : ∀ y, Within A L y → opMap A b.inertia B L (opMap A b.inertiaInv L B y) = y
  moment : val A b.firstMoment = ps.sum
  momentWf : WfMV A b.firstMoment
  momentGrade : gradePart A R (A.n - 1) (val A b.firstMoment) = val A b.firstMoment

theorem mapM_ok {α β : Type} {f : α → Except Fail β} {l : List α} {r : List β} (h : l.mapM f = .ok r) : List.Forall₂ (fun x y => f x = .ok y) l r := by
  induction l generalizing r with
  | nil => cases h; exact .nil
  | cons x l ih =>
    rw [List.mapM_cons] at h
    cases hx : f x with
    | error e => rw [hx] at h; cases h
    | ok y =>
      rw [hx] at h
      cases hl : l.mapM f with
      | error e => rw [hl] at h; cases h
      | ok ys =>
        rw [hl] at h
        cases h
        exact .cons hx (ih hl)

theorem bind_ok {α β : Type} {r : Except Fail α} {k : α → Except Fail β} {y : β} (h : r >>= k = .ok y) : ∃ x, r = .ok x ∧ k x = .ok y := by
  cases r with
  | error e => cases h
  | ok x => exact ⟨x, rfl, h⟩

theorem denote_sumRows {S : SubSpace} {rows : List (List R)} (h : ∀ r ∈ rows, r.length = S.blades.length) :
    denote A R S (sumRows S.blades.length rows) = (rows.map (denote A R S)).sum := by
  have e : ∀ rows : List (List R), (∀ r ∈ rows, r.length = S.blades.length) →
      ∑ i ∈ Finset.range S.blades.length, (rows.map fun r => r.getD i 0).sum • blade A R (S.blades.getD i 0) = (rows.map (denote A R S)).sum := by
    intro rows h
    induction rows with
    | nil => simp
    | cons r rows ih =>
      simp only [List.map_cons, List.sum_cons, add_smul, Finset.sum_add_distrib]
      rw [ih fun r hr => h r (by simp [hr]), denote_eq_sum _ _ (h r (by simp))]
  rw [← e rows h, denote_eq_sum _ _ (by simp [sumRows])]
  refine Finset.sum_congr rfl fun i hi => ?_
  rw [sumRows, List.getD_eq_getElem?_getD (α := R), List.getElem?_map, List.getElem?_range (Finset.mem_range.1 hi)]
  rfl

theorem construct_ok {v : List R} {S : SubSpace} {z : MV R} (h : MV.construct v S = some z) : v.length = S.blades.length ∧ z = ⟨S, v⟩ := by
  unfold MV.construct at h
  split at h
  · exact ⟨by assumption, (Option.some.inj h).symm⟩
  · cases h

theorem rows_points {S : SubSpace} {rows : List (List R)} {points : List (MV R)}
    (h : List.Forall₂ (fun r p => lift (MV.construct r S) = .ok p) rows points) :
    (∀ r ∈ rows, r.length = S.blades.length) ∧ points = rows.map fun r => ⟨S, r⟩ := by
  induction h with
  | nil => simp
  | cons h1 _ ih =>
    refine ⟨fun r hr => ?_, ?_⟩
    · rcases List.mem_cons.1 hr with rfl | hr
      · exact (construct_ok (lift_ok h1)).1
      · exact ih.1 r hr
    · rw [List.map_cons, ← ih.2, (construct_ok (lift_ok h1)).2]

theorem ops_maps {S B T : SubSpace} (hS : WfSub A S)
    (hmap : ∀ p : MV R, WfMV A p → p.sub = S → ∃ q, p.inertiaMap A B = some q ∧ Unary A q B T ∧
      ∀ x, Within A B x → opMap A q B T x = meet A R (val A p) (comm A R (val A p) x))
    {rows : List (List R)} (hrows : ∀ r ∈ rows, r.length = S.blades.length) {x : Cl A R} (hx : Within A B x) {ops : List (Operator R)}
    (h : List.Forall₂ (fun p q => lift (MV.inertiaMap A p B) = .ok q) (rows.map fun r => (⟨S, r⟩ : MV R)) ops) :
    (ops.map fun q => opMap A q B T x) = (rows.map (denote A R S)).map fun p => meet A R p (comm A R p x) := by
  induction rows generalizing ops with
  | nil => cases h; rfl
  | cons r rows ih =>
    rw [List.map_cons] at h
    cases h with
    | cons h1 h2 =>
      rw [List.map_cons, List.map_cons, List.map_cons, ih (fun r hr => hrows r (by simp [hr])) h2]
      obtain ⟨q, q1, -, q3⟩ := hmap ⟨S, r⟩ ⟨hS, hrows r (by simp)⟩ rfl
      cases q1.symm.trans (lift_ok h1)
      rw [q3 x hx]
      rfl

/-- A body made from a cloud of points. -/
theorem cloud_spec (hA : WfAlg A) (hn : 2 ≤ A.n) {S : SubSpace} (hS : WfSub A S) {rows : List (List R)} {b : Body R}
    (h : Body.fromPointCloud A S rows = .ok b) : ∃ B L, Rigid A b (rows.map (denote A R S)) B L ∧ (∀ r ∈ rows, r.length = S.blades.length) ∧
      b.init A = .ok b ∧ (∀ a ∈ b.firstMoment.sub.blades, popcount a + 1 = A.n) ∧
      WfMV A b.motor ∧ WfMV A b.rate ∧ WfMV A b.damping ∧ WfMV A b.gravity ∧
      val A b.motor = 1 ∧ val A b.rate = 0 ∧ val A b.damping = 0 ∧ val A b.gravity = 0 := by
  obtain ⟨⟨sc, sc1, sc2⟩, -, hbiv, -, -, -, ⟨V, v1, v2⟩, hant, -, -, -, -, ⟨E, e1, e2⟩, -⟩ := id (C14_named hA)
  obtain ⟨B, b1, b2⟩ := hbiv hn
  obtain ⟨L, l1, l2⟩ := hant hn
  unfold Body.fromPointCloud at h
  obtain ⟨points, hp, h⟩ := bind_ok h
  obtain ⟨t, ht, h⟩ := bind_ok h
  rw [v1] at ht
  obtain rfl : V.contains S = t := by
    have := lift_ok ht
    exact Option.some.inj this
  split at h
  swap
  · cases h
  rename_i hVS
  have hVS := contains_iff.1 hVS
  obtain ⟨fm, hfm, h⟩ := bind_ok h
  obtain ⟨B', hB', h⟩ := bind_ok h
  cases b1.symm.trans (lift_ok hB')
  obtain ⟨ops, hops, h⟩ := bind_ok h
  obtain ⟨o, ho, h⟩ := bind_ok h
  obtain ⟨inv, hinv, h⟩ := bind_ok h
  obtain ⟨E', hE', h⟩ := bind_ok h
  cases e1.symm.trans (lift_ok hE')
  obtain ⟨mo, hmo, h⟩ := bind_ok h
  obtain ⟨ra, hra, h⟩ := bind_ok h
  obtain ⟨sc', hsc', h⟩ := bind_ok h
  cases sc1.symm.trans (lift_ok hsc')
  obtain ⟨da, hda, h⟩ := bind_ok h
  obtain ⟨da', hda', h⟩ := bind_ok h
  obtain ⟨V', hV', h⟩ := bind_ok h
  cases v1.symm.trans (lift_ok hV')
  obtain ⟨gr, hgr, h⟩ := bind_ok h
  obtain ⟨rfl, -, -, -, i1, -, -⟩ := init_ok h
  obtain ⟨hrows, hpts⟩ := rows_points (mapM_ok hp)
  obtain ⟨o', ho', hmap⟩ := inertiaMap_unary (R := R) hA hS b2.1
  cases ho'.symm.trans (lift_ok ho)
  obtain rfl : L = o.output := by
    have := l1.symm.trans i1
    simpa [sumOperators, Operator.output] using this
  have hops' : ∀ x, Within A B x → (ops.map fun q => opMap A q B o.output x).sum =
      ((rows.map (denote A R S)).map fun p => meet A R p (comm A R p x)).sum := by
    intro x hx
    have := mapM_ok hops
    rw [hpts] at this
    exact congrArg _ (ops_maps hS hmap hrows hx this)
  have hU : Unary A (sumOperators [B, o.output] [B.blades.length, o.output.blades.length] ops) B o.output := ⟨rfl, rfl, b2.1, l2.1⟩
  obtain ⟨hI1, hI2, hI3⟩ := inverse_spec hU (lift_ok hinv)
  obtain ⟨f1, rfl⟩ := construct_ok (lift_ok hfm)
  have hw : ∀ r : List R, r.length = S.blades.length → gradePart A R (A.n - 1) (denote A R S r) = denote A R S r := fun r hr =>
    gradePart_val (x := ⟨S, r⟩) ⟨hS, hr⟩ fun b hb => by
      have := ((v2.2 b).1 (hVS b hb)).2
      omega
  have p0 : popcount 0 = 0 := by decide
  have d1 := C45_default (R := R) e2.1
  rw [if_pos ((e2.2 0).2 ⟨by positivity, by show popcount 0 % 2 = 0; rw [p0]⟩)] at d1
  have d2 := C45_default (R := R) b2.1
  rw [if_neg fun h => by have := ((b2.2 0).1 h).2; omega] at d2
  have d3 := C45_default (R := R) sc2.1
  rw [if_pos ((sc2.2 0).2 ⟨by positivity, rfl⟩)] at d3
  have d4 := C45_default (R := R) v2.1
  rw [if_neg fun h => by have := ((v2.2 0).1 h).2; omega] at d4
  have num : ∀ {x y : MV R} {c : R}, WfMV A x → lift (x.mul A (.num c)) = .ok y → WfMV A y ∧ val A y = c • val A x := by
    intro x y c hx hy
    obtain ⟨z, z1, z2, -, z4⟩ := mul_num hA hx c
    cases z1.symm.trans (lift_ok hy)
    exact ⟨z2, z4⟩
  obtain ⟨m1, m2⟩ := num d1.1 hmo
  obtain ⟨r1, r2⟩ := num d2.1 hra
  obtain ⟨a1, a2⟩ := num d3.1 hda
  obtain ⟨a3, a4⟩ := num a1 hda'
  obtain ⟨g1, g2⟩ := num d4.1 hgr
  refine ⟨B, o.output, ⟨hn, b1, l1, b2, l2, hU, hI1, ?_, ?_, hI2, hI3, ?_, ⟨hS, f1⟩, hw _ f1⟩, hrows, h, fun a ha => ((v2.2 a).1 (hVS a ha)).2, m1, r1, a3, g1, ?_, ?_, ?_, ?_⟩
  · intro p hp
    obtain ⟨r, hr, rfl⟩ := List.mem_map.1 hp
    exact hw r (hrows r hr)
  · intro x hx
    rw [opMap_sum, hops' x hx]
  · exact denote_sumRows hrows
  · rw [m2, d1.2, one_smul]
  · rw [r2, d2.2, smul_zero]
  · rw [a4, zero_smul]
  · rw [g2, d4.2, smul_zero]

end
end Verif
