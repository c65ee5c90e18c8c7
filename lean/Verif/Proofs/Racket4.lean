import Verif.Proofs.Racket3
/-! # The box as a body -/
namespace Verif
open Model Spec Props

/-- A Runge-Kutta step at a rate with derivative zero. -/
theorem Live.rk4_fixed {A : Alg} {R : Type} [Field R] [DecidableEq R] {b : Body R} {ps : List (Cl A R)} {B L : SubSpace} (h : Live A b ps B L) (hA : WfAlg A)
    (h0 : Gives A (b.rateDerivative A) 0) (dt : R) :
    Integrators.RK4 A (fun r => do lift ((← b.copy A none (some r) none none).rateDerivative A)) b.rate dt = .ok b.rate := by
  have hB := h.spaceB.1
  have key : ∀ u : Fin B.blades.length → R, ∃ w : Fin B.blades.length → R,
      (do lift ((← b.copy A none (some (mvOf B u)) none none).rateDerivative A) : Except Fail (MV R)) = .ok (mvOf B w) ∧ (b.rate = mvOf B u → w = 0) := by
    intro u
    have hc := h.copy_total hA (m := none) (r := some (mvOf B u)) rfl rfl
    have hl := h.copy hA (by simp) (by rintro x ⟨⟩; exact wf_mvOf hB u) (by simp) (by simp) hc
    obtain ⟨d, d1, d2, d3, d4⟩ := hl.rateDerivative hA (hl.forques hA)
    obtain ⟨w, rfl⟩ := mvOf_of d3 d2
    refine ⟨w, by rw [hc]; simp only [bind, Except.bind, d1, lift_some], fun hu => ?_⟩
    have hbb : ({ b with motor := (none : Option (MV R)).getD b.motor, rate := (some (mvOf B u)).getD b.rate } : Body R) = b := by
      rw [Option.getD_none, Option.getD_some, ← hu]
    rw [hbb] at d1
    obtain ⟨z, z1, z2, z3⟩ := h0
    cases d1.symm.trans z1
    have e0 : val A (mvOf B (0 : Fin B.blades.length → R)) = 0 := by rw [val_mvOf]; simp
    have := mv_eq z2 (wf_mvOf hB 0) rfl (z3.trans e0.symm)
    simp only [mvOf, MV.mk.injEq, true_and] at this
    exact List.ofFn_injective this
  choose F hF h0 using key
  obtain ⟨u, hu⟩ := mvOf_of h.rateWf h.rateSub
  have := RK4_mvOf hA hB (f := fun r => do lift ((← b.copy A none (some r) none none).rateDerivative A)) hF u dt
  rw [hu, this, RK.rk4]
  simp [h0 u hu]

namespace Spec.Euc
variable {A : Alg} (h : Euc A) {R : Type} [Field R] [DecidableEq R]

omit [DecidableEq R] in
theorem spin_weigh (S : Fin A.n → R) (x : Cl A R) (i k : Fin A.n) : spin A (weigh A S x) i k = (S i + S k) * spin A x i k := by
  by_cases hik : i = k
  · subst hik; simp [spin]
  · rw [spin, spin, coef_weigh S x (pow_xor_lt i k), moment_pair S hik]
    split_ifs <;> ring

/-- A sum over the pairs of axes. -/
theorem sum_pairs (hA : WfAlg A) {f : Nat → R} (hf : ∀ b < 2 ^ A.n, popcount b ≠ 2 → f b = 0) :
    ∑ b ∈ Finset.range (2 ^ A.n), f b = ∑ q : Fin A.n × Fin A.n with q.1 < q.2, f (2 ^ (q.1 : Nat) ^^^ 2 ^ (q.2 : Nat)) := by
  symm
  refine Finset.sum_of_injOn (fun q => 2 ^ (q.1 : Nat) ^^^ 2 ^ (q.2 : Nat)) ?_ ?_ ?_ ?_
  · rintro ⟨i, k⟩ hq ⟨j, l⟩ hr e
    have hq : i < k := by simpa using hq
    have hr : j < l := by simpa using hr
    obtain ⟨e1, e2⟩ := pow_xor_inj hq hr e
    rw [Fin.ext e1, Fin.ext e2]
  · rintro ⟨i, k⟩ hq
    exact Finset.mem_coe.2 (Finset.mem_range.2 (pow_xor_lt i k))
  · intro b hb hn
    refine hf b (Finset.mem_range.1 hb) fun hp => hn ?_
    obtain ⟨i, k, hik, rfl⟩ := two_bit hA (Finset.mem_range.1 hb) hp
    rcases lt_or_gt_of_ne hik with h1 | h1
    · exact ⟨(i, k), by simpa using h1, rfl⟩
    · exact ⟨(k, i), by simpa using h1, Nat.xor_comm ..⟩
  · intro q _; rfl

/-- Second moment of the box along an axis. -/
def second (A : Alg) (R : Type) [Field R] (i : Fin A.n) : R := 2 ^ A.n * ((i : Nat) + 1) ^ 2

/-- The corners as vectors. -/
def corners (A : Alg) (R : Type) [Field R] : List (Fin A.n → R) := (List.range (2 ^ A.n)).map fun p i => (corner p i : R)

omit [DecidableEq R] in
theorem range_sum (n : Nat) (f : Nat → R) : ((List.range n).map f).sum = ∑ p ∈ Finset.range n, f p := by
  induction n with
  | zero => rfl
  | succ n ih => rw [List.range_succ, List.map_append, List.sum_append, ih, Finset.sum_range_succ]; simp

omit [DecidableEq R] in
theorem corners_moment (i k : Fin A.n) : ((corners A R).map fun w => w i * w k).sum = if i = k then second A R i else 0 := by
  have e := congrArg (Int.cast : Int → R) (corner_sum (k := k) i.2)
  rw [corners, List.map_map, range_sum]
  push_cast at e
  rw [Finset.sum_congr rfl fun p _ => rfl]
  simp only [Function.comp_apply, e, Fin.ext_iff, second]

theorem corners_zero : ((corners A R).map fun w => rhMap A R (vec A w)).sum = 0 := by
  have e : ((corners A R).map fun w => rhMap A R (vec A w)).sum = rhMap A R (vec A (corners A R).sum) := by
    induction corners A R with
    | nil => simp [vec]
    | cons w ws ih => rw [List.map_cons, List.sum_cons, ih, List.sum_cons, vec, vec, vec, map_add, map_add]
  have e2 : (corners A R).sum = 0 := by
    funext i
    have : ∀ ws : List (Fin A.n → R), ws.sum i = (ws.map fun w => w i).sum := fun ws => by
      induction ws with
      | nil => rfl
      | cons w ws ih => rw [List.sum_cons, Pi.add_apply, ih]; rfl
    have c := congrArg (Int.cast : Int → R) (corner_zero i.2)
    rw [this, corners, List.map_map, range_sum]
    push_cast at c
    exact c
  rw [e, e2, vec, map_zero, map_zero]

/-- The points of `make_point_cloud`. -/
theorem cloud_spec' (hA : WfAlg A) : ∃ (ps : List (MV R)) (V : SubSpace), Racket.makePointCloud A = some ps ∧ IsSpace A V (fun b => popcount b + 1 = A.n) ∧
    (∀ p ∈ ps, WfMV A p ∧ p.sub = V) ∧ ps.map (val A) = (corners A R).map fun w => rhMap A R (vec A w) := by
  obtain ⟨-, -, -, -, -, -, ⟨V, -, v2⟩, -⟩ := id (C14_named hA)
  obtain ⟨-, ⟨E, e1, e2⟩, -⟩ := id (C14_named hA)
  cases (vector_eq hA).symm.trans e1
  have key : ∀ r ∈ Racket.makeNRect A.desc.nDimensions, ∃ y, (do (← MVFactory.kVector A 1 (some (r.map fun i : Int => (i : R)))).dual A) = some y ∧
      ((∀ p : Nat, r = (List.range A.n).map (corner p) → val A y = rhMap A R (vec A fun i => (corner p i : R))) ∧ WfMV A y ∧ y.sub = V) := by
    intro r hr
    rw [rect_eq] at hr
    obtain ⟨p, -, rfl⟩ := List.mem_map.1 hr
    have hn : A.desc.nDimensions = A.n := rfl
    rw [hn]
    have hw : WfMV A (⟨⟨(List.range A.n).map (2 ^ ·)⟩, ((List.range A.n).map (corner p)).map fun i : Int => (i : R)⟩ : MV R) := ⟨e2.1, by simp⟩
    obtain ⟨y, y1, y2, y3, y4⟩ := dual_in hA hw (T := V) (v2.congr fun b hb => by
      have := compl_pop hA hb
      rw [e2.2]
      have := xor_lt hb (pss_lt A)
      constructor
      · intro h; exact ⟨this, by omega⟩
      · rintro ⟨-, h⟩; omega)
    refine ⟨y, ?_, fun p' hp' => ?_, y3, y2⟩
    · rw [MVFactory.kVector, show A.kVector 1 = A.vector from rfl, vector_eq hA]
      simp only [Option.bind_eq_bind, Option.bind_some, MVFactory.multivector, MV.construct, List.length_map, if_true]
      exact y1
    · rw [y4]
      congr 1
      rw [val, denote_eq_sum _ _ (by simp), vec_eq_sum, hp']
      rw [← Finset.univ.sum_congr rfl fun (i : Fin A.n) _ => by rw [← blade_two_pow], Fin.sum_univ_eq_sum_range (fun i => (corner p' i : R) • blade A R (2 ^ i)) A.n]
      simp only [List.length_map, List.length_range]
      refine Finset.sum_congr rfl fun i hi => ?_
      rw [Finset.mem_range] at hi
      simp [List.getD_eq_getElem?_getD, hi]
  obtain ⟨ps, p1, p2⟩ := mapM_forall₂ key
  rw [rect_eq, List.forall₂_map_left_iff] at p2
  have f1 : ∀ (l : List Nat) (ps : List (MV R)), List.Forall₂ (fun p y => ((∀ p' : Nat, (List.range A.desc.nDimensions).map (corner p) = (List.range A.n).map (corner p') →
      val A y = rhMap A R (vec A fun i => (corner p' i : R))) ∧ WfMV A y ∧ y.sub = V)) l ps →
      (∀ p ∈ ps, WfMV A p ∧ p.sub = V) ∧ ps.map (val A) = l.map fun p => rhMap A R (vec A fun i => (corner p i : R)) := fun l ps hf => by
    induction hf with
    | nil => simp
    | cons e _ ih =>
      refine ⟨fun p hp => ?_, ?_⟩
      · rcases List.mem_cons.1 hp with rfl | hp
        · exact e.2
        · exact ih.1 p hp
      · rw [List.map_cons, List.map_cons, ih.2, e.1 _ rfl]
  obtain ⟨g1, g2⟩ := f1 _ _ p2
  exact ⟨ps, V, p1, v2, g1, by rw [g2, corners, List.map_map]; rfl⟩

include h

theorem box_live {p : MV R} {ps : List (MV R)} (hc : Racket.makePointCloud A = some (p :: ps)) {b : Body R}
    (hb : Made A p.sub ((p :: ps).map (·.vals)) b) : ∃ B L, Live A b ((corners A R).map fun w => rhMap A R (vec A w)) B L := by
  obtain ⟨ps', V, p1, p2, p3, p4⟩ := cloud_spec' (R := R) h.wf
  cases p1.symm.trans hc
  have hp := p3 p (by simp)
  obtain ⟨⟨B, L, hl⟩, -⟩ := hb.live h.wf h.two hp.1.sub
  refine ⟨B, L, ?_⟩
  rw [← p4]
  rwa [List.map_map, List.map_congr_left (g := val A) fun q hq => by
    rw [Function.comp_apply, val, hp.2, (p3 q hq).2]] at hl

variable {b : Body R} {B L : SubSpace} (hl : Live A b ((corners A R).map fun w => rhMap A R (vec A w)) B L)
include hl

theorem box_inertia {x : Cl A R} (hx : Within A B x) : opMap A b.inertia B L x = rhMap A R (weigh A (second A R) x) :=
  h.inertia_diag hl corners_moment hx

theorem box_euler (h2 : (2 : R) ≠ 0) : GivesIn A (b.rateDerivative A) B (val A ((b.rateDerivative A).getD b.rate)) ∧
    ∀ i k, (second A R i + second A R k) * spin A (val A ((b.rateDerivative A).getD b.rate)) i k =
      -(coeff b.damping 0 * spin A (val A b.rate) i k) + (second A R k - second A R i) * ∑ j, spin A (val A b.rate) i j * spin A (val A b.rate) j k := by
  have hA := h.wf
  have hF := hl.forques hA
  rw [hl.moment, corners_zero, map_zero, LinearMap.zero_apply, add_zero] at hF
  obtain ⟨f, f1, f2, f3, f4⟩ := id hF
  obtain ⟨d, d1, d2, d3, d4⟩ := hl.rateDerivative hA hF
  rw [d1, Option.getD_some]
  refine ⟨⟨d, rfl, d2, d3, rfl⟩, fun i k => ?_⟩
  obtain ⟨q, q1, q2, q3, q4⟩ := hl.momentum hl.rateWf hl.rateSub
  obtain ⟨c, c1, c2, c3⟩ := commutator_gives hA q3 hl.rateWf
  have hcL : Within A L (val A f - val A c) := by
    have hs : SubOf c.sub f.sub := by
      intro e he
      have := commutator_sub hA q3 hl.rateWf c1 (k := A.n - 2) (fun a ha => by rw [q2, hl.spaceL.2] at ha; omega)
        (fun a ha => by rw [hl.rateSub, hl.spaceB.2] at ha; exact ha.2) he
      rw [f2, hl.spaceL.2]
      have := h.two
      exact ⟨c2.sub.lt e he, by omega⟩
    obtain ⟨w, -, w2, w3, w4⟩ := (add_in hA f3 c2 hs).2
    exact ⟨w, w3, w2.trans f2, w4⟩
  have hr := hl.rateGrade
  have hw := weigh_grade (second A R) hr
  have hd : Within A B (val A d) := ⟨d, d3, d2, rfl⟩
  have e := congrArg (opMap A b.inertia B L) d4
  rw [← f4, ← q4, ← c3, hl.right _ hcL, h.box_inertia hl hd, c3, q4, h.box_inertia hl hl.rateIn, h.comm_dual h2 hw hr, f4, ← map_smul, ← map_neg, ← map_sub] at e
  have e := congrArg (rhInv A R) e
  rw [rhInv_rh, rhInv_rh] at e
  have e := congrArg (fun z => spin A z i k) e
  simp only [spin_sub, spin_neg, spin_smul, spin_weigh, h.spin_comm h2 hw hr] at e
  rw [e, sub_eq_add_neg, ← Finset.sum_neg_distrib, Finset.mul_sum]
  congr 1
  exact Finset.sum_congr rfl fun j _ => by ring

end Spec.Euc

namespace Spec.Euc
variable {A : Alg} (h : Euc A) {R : Type} [Field R] [LinearOrder R] [IsStrictOrderedRing R]

omit h in
theorem second_pos (i : Fin A.n) : 0 < second A R i := by rw [second]; positivity

include h

/-- The cloud is a body. -/
theorem box_exists {p : MV R} {ps : List (MV R)} (hc : Racket.makePointCloud A = some (p :: ps)) :
    ∃ b, Body.fromPointCloud A p.sub ((p :: ps).map (·.vals)) = .ok b := by
  obtain ⟨ps', V, p1, p2, p3, p4⟩ := cloud_spec' (R := R) h.wf
  cases p1.symm.trans hc
  have hp := p3 p (by simp)
  refine (C93_exists h.wf h.two h.nonNeg hp.1.sub).2 ⟨fun a ha => ((p2.2 a).1 (hp.2 ▸ ha)).2, ?_, fun x hx hs h0 => ?_⟩
  · intro r hr
    obtain ⟨q, hq, rfl⟩ := List.mem_map.1 hr
    rw [hp.2, ← (p3 q hq).2]
    exact (p3 q hq).1.len
  · obtain ⟨B, b1, b2⟩ := (C14_named h.wf).2.2.1 h.two
    cases b1.symm.trans hs
    have hg := within_grade b2 (⟨x, hx, rfl, rfl⟩ : Within A x.sub (val A x))
    have e := h.principal (corners A R) corners_moment hg hg
    have e0 : ((corners A R).map fun w => rhMap A R (vec A w)).map (fun q => innerMap A R (meet A R q (val A x)) (meet A R q (val A x))) =
        ((corners A R).map fun w => rhMap A R (vec A w)).map fun _ => 0 := by
      rw [← p4]
      refine List.map_congr_left fun q hq => ?_
      obtain ⟨q, hq', rfl⟩ := List.mem_map.1 hq
      replace hq := hq'
      have hz : meet A R (val A q) (val A x) * meet A R (val A q) (val A x) = 0 := by
        obtain ⟨y, y1, y2, y3⟩ := h0 q.vals (List.mem_map.2 ⟨q, hq, rfl⟩)
        rw [show (⟨p.sub, q.vals⟩ : MV R) = q by rw [hp.2, ← (p3 q hq).2]] at y1
        obtain ⟨z, z1, z2, z3⟩ := regressive_gives h.wf (p3 q hq).1 hx
        rw [z1, Option.bind_eq_bind, Option.bind_some] at y1
        obtain ⟨t, t1, t2, t3⟩ := product_gives h.wf z2 z2
        cases t1.symm.trans y1
        rw [meet_eq, ← z3, ← t3, y3]
      have hq' : gradePart A R (A.n - 1) (val A q) = val A q :=
        gradePart_val (p3 q hq).1 fun b hb => by have := ((p2.2 b).1 ((p3 q hq).2 ▸ hb)).2; omega
      obtain ⟨u, hu⟩ := exists_vec h.wf (meet_grade h.wf hq' hg (by omega) h.two (by have := h.two; omega))
      rw [hu] at hz ⊢
      rw [inner_vec h.wf, Algebra.algebraMap_eq_smul_one, ← vec_sq, hz]
    rw [e0, List.map_const', List.sum_replicate, smul_zero] at e
    have e1 : (∑ b ∈ Finset.range (2 ^ A.n), moment (second A R) b * (coef A R b (val A x) * coef A R b (val A x))) = 0 := by
      have := congrArg (coef A R 0) e
      rw [map_smul, ← blade_zero, coef_blade A R (Nat.two_pow_pos _)] at this
      simpa using this.symm
    refine coef_ext fun b hb => ?_
    rw [map_zero]
    have mpos : ∀ b, 0 ≤ moment (second A R) b := fun b => Finset.sum_nonneg fun i _ => by split_ifs <;> [exact (second_pos i).le; exact le_refl _]
    have e2 := (Finset.sum_eq_zero_iff_of_nonneg fun b _ => mul_nonneg (mpos b) (mul_self_nonneg _)).1 e1 b (Finset.mem_range.2 hb)
    by_cases hb2 : popcount b = 2
    · obtain ⟨i, k, hik, rfl⟩ := two_bit h.wf hb hb2
      rw [moment_pair _ hik] at e2
      have := second_pos (R := R) i
      have := second_pos (R := R) k
      rcases mul_eq_zero.1 e2 with e3 | e3
      · linarith
      · exact mul_self_eq_zero.1 e3
    · rw [← hg, coef_gradePart _ _ hb, if_neg hb2]

end Spec.Euc
end Verif
