import Verif.Proofs.Chain4
/-! # The bodies of the chain -/
namespace Verif
open Model Spec Props Model.Chain

/-- The rows of the cube. -/
def Spec.cube {R : Type} [Field R] (d : Nat) (size : R) : List (List R) := (makeCube d).map fun r => r.map (· * size)

namespace Spec.Flat
section
variable {A : Alg} {d : Nat} (h : Flat A d) {R : Type} [Field R]
include h

/-- The arm of a row of the cube. -/
theorem arm_cube {size : R} {r : Nat} (hr : r < 2 * d) : ∃ v, (cube d size)[r]? = some v ∧ v.length = d ∧
    arm A v = (((r / 2 + 1 : Nat) : R) / (d : R) * (if r % 2 = 0 then 1 else -1) * size) • gen A R ⟨r / 2, by have := h.n; omega⟩ := by
  refine ⟨((List.range d).map fun i => if i = r / 2 then ((i + 1 : Nat) : R) / (d : R) * (if r % 2 = 0 then 1 else -1) else 0).map (· * size),
    by rw [cube, makeCube, List.map_map, List.getElem?_map, List.getElem?_range hr]; rfl, by simp, ?_⟩
  have hk : r / 2 < d := by omega
  rw [arm, vec_eq_sum, Finset.sum_eq_single ⟨r / 2, by have := h.n; omega⟩ _ (by simp)]
  · simp [List.getD_eq_getElem?_getD, hk]
  · intro j _ hj
    have hj' : (j : Nat) ≠ r / 2 := fun e => hj (Fin.ext e)
    rw [List.getD_eq_getElem?_getD]
    by_cases hd : (j : Nat) < d
    · simp [hd, hj']
    · simp [hd]

omit h in
theorem length_cube (size : R) : (cube d size).length = 2 * d := by simp [cube, makeCube]

omit h in
theorem mem_cube {size : R} {v : List R} (hv : v ∈ cube d size) : v.length = d := by
  simp only [cube, makeCube, List.map_map, List.mem_map, List.mem_range] at hv
  obtain ⟨r, -, rfl⟩ := hv
  simp

omit h in
theorem sum_pairs {M : Type} [AddCommMonoid M] (f : Nat → M) (m : Nat) :
    ((List.range (2 * m)).map f).sum = ∑ k ∈ Finset.range m, (f (2 * k) + f (2 * k + 1)) := by
  induction m with
  | zero => simp
  | succ m ih =>
    rw [show 2 * (m + 1) = 2 * m + 1 + 1 by ring, List.range_succ, List.range_succ, Finset.sum_range_succ, ← ih]
    simp [add_assoc]

/-- The sum of the points of the cube. -/
theorem sum_cube (size : R) : ((cube d size).map (place A)).sum = ((2 * d : Nat) : R) • rhInv A R (last A R) := by
  have e : (cube d size).map (place A) = (List.range (2 * d)).map fun r => rhInv A R (last A R) +
      (((r / 2 + 1 : Nat) : R) / (d : R) * (if r % 2 = 0 then 1 else -1) * size) • rhInv A R (blade A R (2 ^ (r / 2))) := by
    refine List.ext_getElem? fun r => ?_
    rw [List.getElem?_map, List.getElem?_map]
    by_cases hr : r < 2 * d
    · obtain ⟨v, v1, -, v3⟩ := h.arm_cube (size := size) hr
      rw [v1, Option.map_some, List.getElem?_range hr, Option.map_some, place, v3, map_add, map_smul, ← blade_two_pow]
    · rw [List.getElem?_eq_none (by rw [length_cube]; omega), List.getElem?_eq_none (by simpa using hr)]; rfl
  rw [e, sum_pairs, Finset.sum_congr rfl fun k _ => show _ = (2 : R) • rhInv A R (last A R) from ?_, Finset.sum_const, Finset.card_range]
  · rw [← Nat.cast_smul_eq_nsmul R, smul_smul]; push_cast; rw [mul_comm]
  · rw [show 2 * k / 2 = k by omega, show (2 * k + 1) / 2 = k by omega, if_pos (by omega), if_neg (by omega)]
    module

end

section
variable {A : Alg} {d : Nat} (h : Flat A d) {R : Type} [Field R] [LinearOrder R] [IsStrictOrderedRing R]
include h

/-- No rate other than zero leaves all points of the cube in place. -/
theorem cube_regular (hN : NonNeg A) {size : R} (hs : size ≠ 0) {x : Cl A R} (hx : gradePart A R 2 x = x)
    (h0 : ∀ v ∈ cube d size, meet A R (place A v) x * meet A R (place A v) x = 0) : x = 0 := by
  have hn : 2 ≤ A.n := by rw [h.n]; have := h.pos; omega
  have hb : rhMap A R x = 0 := by
    refine gen_wedge_zero h.wf ?_ fun i => ?_
    · have e := rh_grade (R := R) h.wf (k := 2) (l := A.n - 2) (by omega) x
      rw [hx] at e
      rw [← e]
      have : (coef A R A.pss).comp (gradePart A R (A.n - 2)) = 0 := by
        apply lin_ext
        intro b hb
        rw [LinearMap.comp_apply, gradePart_blade _ hb]
        split_ifs with hp
        · rw [coef_blade A R hb, if_neg, LinearMap.zero_apply]
          rintro rfl
          rw [popcount_of_lt h.wf.le32 (pss_lt A), pc_pss] at hp
          omega
        · rw [map_zero, LinearMap.zero_apply]
      exact LinearMap.congr_fun this (rhMap A R x)
    · have key : ∀ k (hk : k < d), wedgeMap A R (last A R) (rhMap A R x) = 0 ∧ wedgeMap A R (gen A R ⟨k, by rw [h.n]; omega⟩) (rhMap A R x) = 0 := by
        intro k hk
        obtain ⟨u, u1, u2, u3⟩ := h.arm_cube (size := size) (r := 2 * k) (by omega)
        obtain ⟨v, v1, v2, v3⟩ := h.arm_cube (size := size) (r := 2 * k + 1) (by omega)
        have e1 := h.join_zero hN u2 hx (h0 u (List.mem_of_getElem? u1))
        have e2 := h.join_zero hN v2 hx (h0 v (List.mem_of_getElem? v1))
        have hk1 : 2 * k / 2 = k := by omega
        have hk2 : (2 * k + 1) / 2 = k := by omega
        simp only [hk1, hk2] at u3 v3
        rw [if_pos (by omega)] at u3
        rw [if_neg (by omega)] at v3
        rw [u3, wedge_add_left, wedge_smul_left] at e1
        rw [v3, wedge_add_left, wedge_smul_left] at e2
        have hl : wedgeMap A R (last A R) (rhMap A R x) = 0 := by
          have : (2 : R) • wedgeMap A R (last A R) (rhMap A R x) = 0 := by
            rw [← add_zero (0 : Cl A R)]
            nth_rewrite 1 [← e1]
            rw [← e2]
            module
          exact (smul_eq_zero.1 this).resolve_left two_ne_zero
        refine ⟨hl, ?_⟩
        rw [hl, zero_add] at e1
        refine (smul_eq_zero.1 e1).resolve_left ?_
        have : (d : R) ≠ 0 := by exact_mod_cast (by have := h.pos; omega : d ≠ 0)
        have : ((k + 1 : Nat) : R) ≠ 0 := by exact_mod_cast Nat.succ_ne_zero k
        positivity
      by_cases hi : (i : Nat) < d
      · exact (key i hi).2
      · have : i = h.iw := Fin.ext (by have := i.2; have := h.n; show (i : Nat) = d; omega)
        rw [this, ← h.last_eq]
        exact (key 0 (by have := h.pos; omega)).1
  rw [← rhInv_rh x, hb, map_zero]

/-- The cube makes a body. -/
theorem cloud_cube (hN : NonNeg A) {size : R} (hs : size ≠ 0) {V : SubSpace} (hV : IsSpace A V fun b => popcount b + 1 = A.n) {rows : List (List R)}
    (hr : ∀ r ∈ rows, r.length = V.blades.length) (hc : rows.map (denote A R V) = (cube d size).map (place A)) :
    ∃ b, Body.fromPointCloud A V rows = .ok b := by
  have hn : 2 ≤ A.n := by rw [h.n]; have := h.pos; omega
  refine (C93_exists h.wf hn hN hV.1).2 ⟨fun a ha => ((hV.2 a).1 ha).2, hr, fun x hx hxs h0 => ?_⟩
  obtain ⟨B, b1, b2⟩ := (C14_named h.wf).2.2.1 hn
  cases b1.symm.trans hxs
  refine h.cube_regular hN hs (within_grade b2 ⟨x, hx, rfl, rfl⟩) fun v hv => ?_
  obtain ⟨r, r1, r2⟩ := List.mem_map.1 (show place A v ∈ rows.map (denote A R V) by rw [hc]; exact List.mem_map_of_mem hv)
  obtain ⟨w, w1, w2, w3⟩ := h0 r r1
  obtain ⟨z, z1, z2, z3⟩ := regressive_gives h.wf (x := ⟨V, r⟩) ⟨hV.1, hr r r1⟩ hx
  obtain ⟨w', w1', -, w3'⟩ := product_gives h.wf z2 z2
  rw [z1] at w1
  cases w1'.symm.trans w1
  rw [w3, z3, ← meet_eq, show val A (⟨V, r⟩ : MV R) = place A v from r2] at w3'
  exact w3'.symm

end

section
variable {A : Alg} {d : Nat} (h : Flat A d) {R : Type} [Field R] [DecidableEq R]

omit h in
theorem _root_.Verif.init_mk {b : Body R} {V : SubSpace} (h1 : A.evenGrade = some b.motor.sub) (h2 : A.bivector = some b.rate.sub) (h3 : A.antivector = some V)
    (h4 : SubOf b.gravity.sub V) (h5 : A.antibivector = some b.inertia.output) (h6 : A.bivector = some b.inertiaInv.output)
    (h7 : A.scalar = some b.damping.sub) : b.init A = .ok b := by
  rw [Body.init, if_pos]
  rw [Body.asserts, h1, h2, h3, h5, h7]
  have h6' : b.rate.sub = b.inertiaInv.output := Option.some.inj (h2.symm.trans h6)
  simp [contains_iff.2 h4, h6']

include h
variable (fuel n : Nat) (e : R → R)

/-- The first body. -/
theorem first_spec (h2 : (2 : R) ≠ 0) {V : SubSpace} (v1 : A.antivector = some V) (hV : IsSpace A V fun b => popcount b + 1 = A.n) (size damping : R) :
    ∃ rows : List (List R), (∀ r ∈ rows, r.length = V.blades.length) ∧ rows.map (denote A R V) = (cube d size).map (place A) ∧
      (∀ b, firstBody A fuel e n size damping = .ok b → ∃ b0, Body.fromPointCloud A V rows = .ok b0) ∧
      ∀ b0, Body.fromPointCloud A V rows = .ok b0 → ∃ b, firstBody A fuel e n size damping = .ok b ∧ Made A V rows b ∧ val A b.motor = 1 ∧ val A b.rate = 0 ∧
        val A b.damping = damping • 1 ∧ val A b.gravity = rhInv A R ((1 / 20 : R) • blade A R 1) ∧
        val A b.firstMoment = ((2 * d : Nat) : R) • rhInv A R (last A R) := by
  have hn : 2 ≤ A.n := by rw [h.n]; have := h.pos; omega
  have hp : ∀ v ∈ cube d size, ∃ p, pointEmbed A fuel e n v = .ok p ∧ WfMV A p ∧ p.sub = V ∧ val A p = place A v := fun v hv =>
    h.point_spec fuel n e h2 hV (mem_cube hv)
  have : Nonempty (MV R) := ⟨⟨⟨[]⟩, []⟩⟩
  choose! pf p1 p2 p3 p4 using hp
  have hps : (cube d size).mapM (pointEmbed A fuel e n) = .ok ((cube d size).map pf) := by
    rw [mapM_iff, List.forall₂_map_right_iff, List.forall₂_same]
    exact p1
  have hr : ∀ r ∈ ((cube d size).map pf).map (·.vals), r.length = V.blades.length := by
    intro r hr
    rw [List.map_map] at hr
    obtain ⟨v, hv, rfl⟩ := List.mem_map.1 hr
    rw [Function.comp_apply, (p2 v hv).len, p3 v hv]
  have hd : (((cube d size).map pf).map (·.vals)).map (denote A R V) = (cube d size).map (place A) := by
    rw [List.map_map, List.map_map]
    refine List.map_congr_left fun v hv => ?_
    rw [Function.comp_apply, Function.comp_apply, ← p4 v hv, val, p3 v hv]
  obtain ⟨v0, hv0⟩ : ∃ v0, v0 ∈ cube d size := by
    obtain ⟨v, v1, -⟩ := h.arm_cube (size := size) (r := 0) (by have := h.pos; omega)
    exact ⟨v, List.mem_of_getElem? v1⟩
  -- the equation of the program
  have wx : WfMV A (⟨⟨[2 ^ 0]⟩, [1]⟩ : MV R) := ⟨h.wfPow (by rw [h.n]; omega), rfl⟩
  obtain ⟨g0, g01, g02, g03, g04⟩ := num_in h.wf wx (1 / 20 : R)
  obtain ⟨g, g1, g2, g3⟩ := un_gives (rightHodgeInverse_un h.wf) g03
  have hg : g0.dualInverse A = some g := g1
  have hx0 : val A (⟨⟨[2 ^ 0]⟩, [1]⟩ : MV R) = blade A R 1 := by simp [val, denote]
  rw [g04, hx0] at g3
  have hgs : SubOf g.sub V := by
    obtain ⟨op, o1, -⟩ := rightHodgeInverse_un h.wf (argSem_sub g03.sub)
    have ho := rightHodgeInverse_output h.wf g03.sub o1
    have hg' := hg
    rw [MV.dualInverse, o1] at hg'
    obtain ⟨C, c1, c2⟩ := complement_spec h.wf g03.sub
    have : op.output = C := Option.some.inj (ho.symm.trans c1)
    rw [call_sub hg', this]
    intro b hb
    rw [c2.2, g02] at hb
    simp only [List.mem_singleton] at hb
    rw [hV.2]
    refine ⟨hb.1, ?_⟩
    have hx := popcount_xor b A.pss
    have h1 : popcount (2 ^ 0) = 1 := by decide
    rw [pc_and_pss hb.1, popcount_of_lt h.wf.le32 (pss_lt A), pc_pss, hb.2, h1] at hx
    show popcount b + 1 = A.n
    rw [popcount_of_lt h.wf.le32 hb.1] at hx ⊢
    omega
  have eq : firstBody A fuel e n size damping = (do
      let b ← Body.fromPointCloud A V (((cube d size).map pf).map (·.vals))
      let b ← b.copy A none none (some g) none
      b.copy A none none none (some (← lift (b.damping.add A (.num damping))))) := by
    rw [firstBody, h.axes_eq, lift_some]
    have hl : ((List.range d).map fun i => (⟨⟨[2 ^ i]⟩, [1]⟩ : MV R)).length = d := by simp
    have hh : ((List.range d).map fun i => (⟨⟨[2 ^ i]⟩, [1]⟩ : MV R)).head? = some ⟨⟨[2 ^ 0]⟩, [1]⟩ := by
      obtain ⟨k, rfl⟩ : ∃ k, d = k + 1 := ⟨d - 1, by have := h.pos; omega⟩
      rw [List.range_succ_eq_map]; rfl
    show (((makeCube _).map _).mapM (pointEmbed A fuel e n) >>= _) = _
    rw [hl]
    show ((cube d size).mapM (pointEmbed A fuel e n) >>= _) = _
    rw [hps]
    simp only [hh, Option.bind_eq_bind, Option.bind_some, g01, hg, lift_some]
    cases hc : cube d size with
    | nil => rw [hc] at hv0; cases hv0
    | cons a l =>
      have : (pf a).sub = V := p3 a (by rw [hc]; simp)
      show (Body.fromPointCloud A (pf a).sub _ >>= _) = _
      rw [this]
      rfl
  refine ⟨((cube d size).map pf).map (·.vals), hr, hd, fun b hb => ?_, fun b0 hb0 => ?_⟩
  · rw [eq] at hb
    obtain ⟨b0, hb0, -⟩ := bind_ok hb
    exact ⟨b0, hb0⟩
  obtain ⟨r1, r2, r3, r4, r5⟩ := C93_rest h.wf hn hV.1 hb0
  have hm := Made.cloud hb0
  obtain ⟨s1, -⟩ := hm.sound h.wf hn hV.1
  obtain ⟨-, i1, i2, -, i4, i5, i6⟩ := init_ok s1
  have hi1 : b0.copy A none none (some g) none = .ok { b0 with gravity := g } := init_mk (V := V) i1 i2 v1 hgs i4 i5 i6
  obtain ⟨⟨B, L, hlive⟩, -⟩ := hm.live h.wf hn hV.1
  obtain ⟨u1, u2⟩ := upcast_num' h.wf damping
  obtain ⟨dm, d1, d2, d3, d4⟩ := (add_in h.wf hlive.dampingWf u2 (by rw [hlive.dampingSub]; exact fun _ h => h)).1
  have hdm : b0.damping.add A (.num damping) = some dm := by rw [← d1, MV.add, u1]; rfl
  have hi2 : ({ b0 with gravity := g } : Body R).copy A none none none (some dm) = .ok { b0 with gravity := g, damping := dm } :=
    init_mk (V := V) i1 i2 v1 hgs i4 i5 (by show A.scalar = some dm.sub; rw [d2]; exact i6)
  refine ⟨{ b0 with gravity := g, damping := dm }, ?_, ?_, r1, r2, ?_, g3, ?_⟩
  · rw [eq, hb0]
    show (b0.copy A none none (some g) none >>= _) = _
    rw [hi1]
    show (lift (b0.damping.add A (.num damping)) >>= _) = _
    rw [hdm]
    exact hi2
  · refine .copy (.copy hm (by simp) (by simp) ?_ (by simp) hi1) (by simp) (by simp) (by simp) ?_ hi2
    · intro x hx; cases hx; exact g2
    · intro x hx; cases hx; exact d3
  · show val A dm = _
    rw [d4, r3, zero_add]; simp [val, denote, blade_zero]
  · show val A b0.firstMoment = _
    rw [r5, hd, h.sum_cube]

end
end Spec.Flat
end Verif
