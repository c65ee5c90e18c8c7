import Verif.Proofs.Stuck2
/-!
# C107: constraints that are satisfied

`numga/examples/physics/core.py`, in exact arithmetic: a constraint between two bodies that fall together stops the simulation.
-/
namespace Verif.Props
open Model Spec Model.Chain

section
variable {A : Alg} {R : Type} [Field R] [DecidableEq R]

/-- The two anchors of a constraint are at the same place. -/
def Together (A : Alg) (bs : List (Body R)) (l : Link R) : Prop :=
  ∃ b0 b1 p, pyGet bs l.idx0 = some b0 ∧ pyGet bs l.idx1 = some b1 ∧ Gives A (b0.motor.sandwich A l.constraint.anchor0) p ∧ Gives A (b1.motor.sandwich A l.constraint.anchor1) p

end

section
variable {A : Alg} {d : Nat} {R : Type} [Field R] [LinearOrder R] [IsStrictOrderedRing R] (h : Spec.Flat A d)
include h

/-- After `apply` of sets of constraints that are satisfied: bodies `k` with `P t k` after `t` of them have only fallen. -/
theorem mid_sets (h4 : A.n = 3 ∨ A.n = 4) (h0 : ∃ i j, i < j ∧ j < A.n ∧ A.desc.sig.getD i 0 ≠ 0 ∧ A.desc.sig.getD j 0 ≠ 0) {i : Fin A.n} (hi : i ≠ h.iw)
    {rt : Roots R} (hr : RealRoots rt) {fuel : Nat} {c dt : R} (hdt : dt ≠ 0) {tiny : R} {bs : List (Body R)} {sets : List (List (Link R))} (P : Nat → Nat → Prop)
    (hl : ∀ s ∈ sets, Apart bs.length s ∧ ∀ l ∈ s, Proper A l.constraint ∧ Together A bs l)
    (hP : ∀ t s, sets[t]? = some s → ∀ k, P (t + 1) k → P t k ∧ ∀ l ∈ s, ∀ i j, pyIndex bs.length l.idx0 = some i → pyIndex bs.length l.idx1 = some j → k = i ∨ k = j → P t i ∧ P t j)
    {xs ys : List (Body R)} (hlen : xs.length = bs.length) (hS : ∀ x ∈ xs, Sound A x)
    (hM : ∀ k, P 0 k → ∃ b x, bs[k]? = some b ∧ xs[k]? = some x ∧ Mid A d rt (fuel + 2) i c dt b x)
    (e : sets.foldlM (fun new s => Link.apply A rt (fuel + 2) tiny s new dt) xs = .ok ys) :
    ys.length = bs.length ∧ ∀ k, P sets.length k → ∃ b y, bs[k]? = some b ∧ ys[k]? = some y ∧ Mid A d rt (fuel + 2) i c dt b y := by
  induction sets generalizing P xs with
  | nil => cases e; exact ⟨hlen, hM⟩
  | cons s sets ih =>
    rw [List.foldlM_cons] at e
    obtain ⟨zs, e1, e⟩ := bind_ok e
    obtain ⟨hs1, hs2⟩ := hl s (by simp)
    rw [C99_apply hS (by rw [hlen]; exact hs1)] at e1
    refine ih (P := fun t => P (t + 1)) (fun s hs => hl s (by simp [hs])) (fun t s hs => hP (t + 1) s (by simpa using hs)) (e1.len.trans hlen) ?_ ?_ e
    · intro z hz
      obtain ⟨k, hk⟩ := List.mem_iff_getElem?.1 hz
      obtain ⟨b', e', rfl | ⟨_, _, _, _, _, _, _, _, _, _, _, _, _, ⟨-, p⟩ | ⟨-, p⟩⟩⟩ := e1.mem hk
      · exact hS _ (List.mem_of_getElem? e')
      · exact (hS _ (List.mem_of_getElem? e')).motor p
      · exact (hS _ (List.mem_of_getElem? e')).motor p
    · intro k hk
      obtain ⟨hk0, hk1⟩ := hP 0 s rfl k hk
      by_cases ht : ∀ l ∈ s, pyIndex xs.length l.idx0 ≠ some k ∧ pyIndex xs.length l.idx1 ≠ some k
      · rw [e1.rest k ht]
        exact hM k hk0
      · push Not at ht
        obtain ⟨l, hls, ht⟩ := ht
        obtain ⟨u, w, b0, b1, n0, n1, c0, c1, f1, f2, f3, f4, f5, f6, f7, f8, f9⟩ := e1.changed l hls
        rw [f1, f2] at ht
        rw [hlen] at f1 f2
        have hkk : k = u ∨ k = w := by
          by_cases hu : k = u
          · exact .inl hu
          · exact .inr (Option.some.inj (ht fun e => hu (Option.some.inj e).symm)).symm
        obtain ⟨g1, g2⟩ := hk1 l hls u w f1 f2 hkk
        obtain ⟨o0, x0, o01, o02, o03⟩ := hM u g1
        obtain ⟨o1, x1, o11, o12, o13⟩ := hM w g2
        cases f3.symm.trans o02
        cases f4.symm.trans o12
        obtain ⟨hp, d0, d1, p, t1, t2, t3, t4⟩ := hs2 l hls
        obtain ⟨u', a1, a2⟩ := pyGet_ok.1 (show lift (pyGet bs l.idx0) = .ok d0 by rw [t1]; rfl)
        cases f1.symm.trans a1
        cases o01.symm.trans a2
        obtain ⟨w', a3, a4⟩ := pyGet_ok.1 (show lift (pyGet bs l.idx1) = .ok d1 by rw [t2]; rfl)
        cases f2.symm.trans a3
        cases o11.symm.trans a4
        obtain ⟨r0, r1⟩ := o03.apply h hi h4 h0 hr hdt o13 hp t3 t4 f5 f6 f7
        rcases hkk with rfl | rfl
        · exact ⟨_, _, o01, f8, r0⟩
        · exact ⟨_, _, o11, f9, r1⟩

/-- A set of constraints that are satisfied stops the simulation, if two bodies connected by its first set have only fallen in the end. -/
theorem stuck (h4 : A.n = 3 ∨ A.n = 4) (hN : ∀ s ∈ A.desc.sig, 0 ≤ s) (h0 : ∃ i j, i < j ∧ j < A.n ∧ A.desc.sig.getD i 0 ≠ 0 ∧ A.desc.sig.getD j 0 ≠ 0) {i : Fin A.n} (hi : i ≠ h.iw)
    {rt : Roots R} (hr : RealRoots rt) {fuel : Nat} (hf : 4 ≤ fuel + 2) {c g κ dt : R} (hdt : dt ≠ 0) {tiny : R} (ht : 0 < tiny) {bs : List (Body R)} {s0 : List (Link R)}
    {sets : List (List (Link R))} (P : Nat → Nat → Prop) (hl : ∀ s ∈ s0 :: sets, Apart bs.length s ∧ ∀ l ∈ s, Proper A l.constraint ∧ Together A bs l)
    (hP : ∀ t s, (s0 :: sets)[t]? = some s → ∀ k, P (t + 1) k → P t k ∧ ∀ l ∈ s, ∀ i j, pyIndex bs.length l.idx0 = some i → pyIndex bs.length l.idx1 = some j → k = i ∨ k = j → P t i ∧ P t j)
    (hb : ∀ k, P 0 k → ∃ b M δ v, bs[k]? = some b ∧ M ≠ 0 ∧ δ / M = κ ∧ Falls A d i M g δ c v b)
    {l : Link R} (hl0 : l ∈ s0) {u w : Nat} (hu : pyIndex bs.length l.idx0 = some u) (hw : pyIndex bs.length l.idx1 = some w)
    (pu : P (s0 :: sets).length u) (pw : P (s0 :: sets).length w) :
    ¬ ∃ r, Link.integrate A rt (fuel + 2) tiny (s0 :: sets) bs dt = .ok r := by
  rintro ⟨r, e⟩
  unfold Link.integrate at e
  obtain ⟨xs, e1, e⟩ := bind_ok e
  obtain ⟨ys, e2, e⟩ := bind_ok e
  obtain ⟨zs, e3, e⟩ := bind_ok e
  rw [List.foldlM_cons] at e
  obtain ⟨_, e4, -⟩ := bind_ok e
  obtain ⟨l1, g1⟩ := forall₂_getElem.1 (mapM_iff.1 e1)
  obtain ⟨l2, g2⟩ := mid_sets h h4 h0 hi hr hdt (c := RK.rk4 (fun x : R => -g - κ * x) c dt) P hl hP l1.symm
    (fun x hx => by
      obtain ⟨k, hk⟩ := List.mem_iff_getElem?.1 hx
      have hk' := (List.getElem?_eq_some_iff.1 hk).1
      exact pre_sound (g1 k _ x (List.getElem?_eq_getElem (by omega)) hk))
    (fun k hk => by
      obtain ⟨b, M, δ, v, q1, q2, q3, q4⟩ := hb k hk
      have hk' := (List.getElem?_eq_some_iff.1 q1).1
      have hx : xs[k]? = some (xs[k]'(by omega)) := List.getElem?_eq_getElem _
      exact ⟨b, _, q1, hx, Mid.of_pre h hi (by omega) hN hr hf q2 q4 (by rw [q3]) (g1 k b _ q1 hx)⟩) e2
  obtain ⟨l3, g3⟩ := forall₂_getElem.1 (mapM_iff.1 e3)
  rw [List.length_zip, l2, min_self] at l3
  have hD : ∀ k, P (s0 :: sets).length k → ∃ b z, bs[k]? = some b ∧ zs[k]? = some z ∧ Done A d i (RK.rk4 (fun x : R => -g - κ * x) c dt) dt b z ∧
      ∃ S rows, WfSub A S ∧ Made A S rows b := by
    intro k hk
    obtain ⟨b, y, q1, q2, q3⟩ := g2 k hk
    have hk' := (List.getElem?_eq_some_iff.1 q1).1
    have hz : zs[k]? = some (zs[k]'(by omega)) := List.getElem?_eq_getElem _
    obtain ⟨⟨S, rows, _, _, hS, hm, -⟩, -⟩ := q3.old
    exact ⟨b, _, q1, hz, q3.post h (by omega) hr hf hdt (g3 k (y, b) _ (by rw [List.getElem?_zip_eq_some]; exact ⟨q2, q1⟩) hz), S, rows, hS, hm⟩
  obtain ⟨o0, z0, o01, o02, o03, S0, rows0, hS0, m0⟩ := hD u pu
  obtain ⟨o1, z1, o11, o12, o13, S1, rows1, hS1, m1⟩ := hD w pw
  obtain ⟨hp, d0, d1, p, t1, t2, t3, t4⟩ := (hl s0 (by simp)).2 l hl0
  obtain ⟨u', a1, a2⟩ := pyGet_ok.1 (show lift (pyGet bs l.idx0) = .ok d0 by rw [t1]; rfl)
  cases hu.symm.trans a1
  cases o01.symm.trans a2
  obtain ⟨w', a3, a4⟩ := pyGet_ok.1 (show lift (pyGet bs l.idx1) = .ok d1 by rw [t2]; rfl)
  cases hw.symm.trans a3
  cases o11.symm.trans a4
  refine o03.stuck h hi h4 hN h0 hr ht (fuel := fuel) hS0 hS1 m0 m1 o13 hp t3 t4 ?_
  unfold Link.vApply at e4
  obtain ⟨rs, e5, -⟩ := bind_ok e4
  obtain ⟨l5, g5⟩ := forall₂_getElem.1 (mapM_iff.1 e5)
  obtain ⟨k, hk⟩ := List.mem_iff_getElem?.1 hl0
  have hk' := (List.getElem?_eq_some_iff.1 hk).1
  have := g5 k l (rs[k]'(by omega)) hk (List.getElem?_eq_getElem _)
  obtain ⟨x0, q0, this⟩ := bind_ok this
  obtain ⟨x1, q1, this⟩ := bind_ok this
  obtain ⟨u', a1, a2⟩ := pyGet_ok.1 q0
  rw [← l3] at a1
  cases hu.symm.trans a1
  cases o02.symm.trans a2
  obtain ⟨w', a3, a4⟩ := pyGet_ok.1 q1
  rw [← l3] at a3
  cases hw.symm.trans a3
  cases o12.symm.trans a4
  exact ⟨_, this⟩

omit h in
/-- C107: in the plane and in space `apply_indexed` of a constraint whose anchors are at the same place keeps both motors, up to their signs, whatever the bodies are. -/
theorem C107_idle (hA : WfAlg A) (h4 : A.n = 3 ∨ A.n = 4) (h0 : ∃ i j, i < j ∧ j < A.n ∧ A.desc.sig.getD i 0 ≠ 0 ∧ A.desc.sig.getD j 0 ≠ 0) {rt : Roots R} (hr : RootLaw rt) {fuel : Nat}
    {b0 b1 : Body R} (m0 : Moving A b0) (m1 : Moving A b1) {k : Constraint R} (hk : Proper A k)
    {p : Cl A R} (p0 : Gives A (b0.motor.sandwich A k.anchor0) p) (p1 : Gives A (b1.motor.sandwich A k.anchor1) p) {tiny dt : R} (hdt : dt ≠ 0) {n0 n1 : MV R}
    (e : k.applyIndexed A rt (fuel + 2) tiny b0.motor b1.motor b0.inertiaInv b1.inertiaInv dt = .ok (n0, n1)) :
    (val A n0 = val A b0.motor ∨ val A n0 = -val A b0.motor) ∧ (val A n1 = val A b1.motor ∨ val A n1 = -val A b1.motor) := by
  obtain ⟨⟨S0, rows0, hS0, hm0⟩, u0⟩ := m0
  obtain ⟨⟨S1, rows1, hS1, hm1⟩, -⟩ := m1
  obtain ⟨⟨B, L, hb0⟩, -⟩ := hm0.live hA (by omega) hS0
  obtain ⟨⟨B', L', hb1⟩, -⟩ := hm1.live hA (by omega) hS1
  obtain ⟨rfl, rfl⟩ := live_same hb0 hb1
  obtain ⟨⟨-, -, ε, q1, q2⟩, -, -, ε', q3, q4⟩ := idle_apply hA h4 two_ne_zero h0 hr hb0 hb1 u0 hk.1 hk.2.1 hk.2.2.1 hk.2.2.2 p0 p1 hdt e
  have one : ∀ {ε : R} {x y : Cl A R}, ε * ε = 1 → x = ε • y → x = y ∨ x = -y := by
    intro ε x y h1 h2
    rcases mul_self_eq_one_iff.1 h1 with e | e <;> rw [h2, e] <;> simp
  exact ⟨one q1 q2, one q3 q4⟩

end

section
variable {A : Alg} {R : Type} [Field R] [LinearOrder R] [IsStrictOrderedRing R] {d : Nat} (h : Spec.Flat A d)
include h

theorem space_axes (hd : 2 ≤ d) : ∃ i j, i < j ∧ j < A.n ∧ A.desc.sig.getD i 0 ≠ 0 ∧ A.desc.sig.getD j 0 ≠ 0 :=
  ⟨0, 1, by omega, by rw [h.n]; omega, h.unit 0 (by omega), h.unit 1 (by omega)⟩

/-- C107: bodies in the plane or in space that fall side by side, with the same speed and the same damping for their mass, cannot be stepped with constraints all of which are satisfied:
the velocity step of the first constraint is without result. -/
theorem C107_free (hd : d = 2 ∨ d = 3) (hN : ∀ s ∈ A.desc.sig, 0 ≤ s) {i : Fin A.n} (hi : (i : Nat) < d) {rt : Roots R} (hr : RealRoots rt) {fuel : Nat} (hf : 4 ≤ fuel) {c g κ dt : R} (hdt : dt ≠ 0)
    {tiny : R} (ht : 0 < tiny) {bs : List (Body R)} (hb : ∀ b ∈ bs, ∃ M δ v, M ≠ 0 ∧ δ / M = κ ∧ Falls A d i M g δ c v b) {s0 : List (Link R)} {sets : List (List (Link R))}
    (hl : ∀ s ∈ s0 :: sets, Apart bs.length s ∧ ∀ l ∈ s, Proper A l.constraint ∧ Together A bs l) (hs : s0 ≠ []) :
    ¬ ∃ r, Link.integrate A rt fuel tiny (s0 :: sets) bs dt = .ok r := by
  obtain ⟨f, rfl⟩ : ∃ f, fuel = f + 2 := ⟨fuel - 2, by omega⟩
  have hiw : i ≠ h.iw := fun e => by
    have : (i : Nat) = d := congrArg Fin.val e
    omega
  obtain ⟨l, hl0⟩ := List.exists_mem_of_ne_nil _ hs
  obtain ⟨-, b0, b1, p, t1, t2, -⟩ := (hl s0 (by simp)).2 l hl0
  obtain ⟨u, u1, -⟩ := pyGet_ok.1 (show lift (pyGet bs l.idx0) = .ok b0 by rw [t1]; rfl)
  obtain ⟨w, w1, -⟩ := pyGet_ok.1 (show lift (pyGet bs l.idx1) = .ok b1 by rw [t2]; rfl)
  refine stuck h (by rw [h.n]; omega) hN (space_axes h (by omega)) hiw hr hf hdt ht (c := c) (g := g) (κ := κ) (fun _ k => k < bs.length) hl ?_ ?_ hl0 u1 w1 (pyIndex_lt u1) (pyIndex_lt w1)
  · intro t s _ k hk
    exact ⟨hk, fun l _ i j hi hj _ => ⟨pyIndex_lt hi, pyIndex_lt hj⟩⟩
  · intro k hk
    obtain ⟨M, δ, v, q⟩ := hb _ (List.getElem_mem hk)
    exact ⟨_, M, δ, v, List.getElem?_eq_getElem hk, q⟩

omit [LinearOrder R] [IsStrictOrderedRing R] h in
theorem pyIndex_cast {n k : Nat} (hk : k < n) : pyIndex n (k : Int) = some k := by
  unfold pyIndex
  simp [hk]

/-- C107: the bodies of the chain of the examples in the plane or in space, as it is set up, cannot be stepped if it has at least two bodies, or six if it is fixed. -/
theorem C107_chain (hd : d = 2 ∨ d = 3) (hN : ∀ s ∈ A.desc.sig, 0 ≤ s) {rt : Roots R} (hr : RealRoots rt) {fuel : Nat} (hf : 4 ≤ fuel) {tiny : R} (ht : 0 < tiny) (fuel' n : Nat) (e : R → R)
    {fixing : Bool} {nB : Nat} {compliance distance size damping : R} {bs : List (Body R)} {s0 s1 : List (Link R)}
    (hs : setupBodies A fuel' e n fixing nB compliance distance size damping = .ok (bs, s0, s1)) (hnB : (if fixing then 6 else 2) ≤ nB) {dt : R} (hdt : dt ≠ 0) :
    ¬ ∃ r, Link.integrate A rt fuel tiny [s0, s1] bs dt = .ok r := by
  obtain ⟨f, rfl⟩ : ∃ f, fuel = f + 2 := ⟨fuel - 2, by omega⟩
  have h2 : (2 : R) ≠ 0 := two_ne_zero
  have hz : 0 < A.n := by rw [h.n]; omega
  have hlen : bs.length = nB := (C104_rest h fuel' n e h2 hs).2.1
  obtain ⟨a0, a1, hi, hl⟩ := C104_chain h fuel' n e h2 hs
  have hl' : ∀ s ∈ [s0, s1], ∀ l ∈ s, l ∈ s0 ++ s1 := by
    intro s hs l hx
    rcases List.mem_cons.1 hs with rfl | hs
    · exact List.mem_append_left _ hx
    · rw [List.mem_singleton.1 hs] at hx
      exact List.mem_append_right _ hx
  have hiw : (⟨0, hz⟩ : Fin A.n) ≠ h.iw := fun e => by
    have : 0 = d := congrArg Fin.val e
    omega
  -- the bodies that have only fallen
  obtain ⟨m, hm⟩ : ∃ m : Nat, m = if fixing then 1 else 0 := ⟨_, rfl⟩
  have hm1 : m = 0 ∨ m = 1 := by cases fixing <;> simp [hm]
  have hm2 : 4 * m + 1 < nB := by cases fixing <;> simp [hm] at hnB ⊢ <;> omega
  obtain ⟨l, l1, l2, l3⟩ := hi (4 * m) hm2
  rw [if_pos (by omega)] at l1
  refine stuck h (by rw [h.n]; omega) hN (space_axes h (by omega)) hiw hr hf hdt ht (c := 0) (g := 1 / 20) (κ := damping / ((2 * d : Nat) : R)) (fun t k => m * (t + 1) ≤ k ∧ k < nB) (s0 := s0) (sets := [s1]) ?_ ?_ ?_
    (List.mem_of_getElem? l1) (u := 4 * m) (w := 4 * m + 1) ?_ ?_ ?_ ?_
  · intro s hs
    refine ⟨?_, fun l hl0 => ?_⟩
    · rcases List.mem_cons.1 hs with rfl | hs
      · exact a0
      · rw [List.mem_singleton.1 hs]; exact a1
    · obtain ⟨⟨q1, q2, q3, q4, -⟩, i, -, -, -, b0, b1, p, p1, p2, p3, p4, -⟩ := hl l (hl' s hs l hl0)
      exact ⟨⟨q1, q2, q3, q4⟩, b0, b1, p, p1, p2, p3, p4⟩
  · intro t s hs k ⟨k1, k2⟩
    have k3 : m * (t + 1 + 1) = m * (t + 1) + m := by ring
    refine ⟨⟨by omega, k2⟩, fun l hl0 u w hu hw hk => ?_⟩
    obtain ⟨-, i, q1, q2, q3, -⟩ := hl l (hl' s (List.mem_of_getElem? hs) l hl0)
    rw [hlen, q2, pyIndex_cast (by omega)] at hu
    rw [hlen, q3, show ((i : Int) + 1) = ((i + 1 : Nat) : Int) by push_cast; rfl, pyIndex_cast q1] at hw
    cases hu
    cases hw
    rcases hm1 with e | e
    · rw [e] at k1 ⊢
      omega
    · rw [e] at k1 ⊢
      omega
  · intro k ⟨k1, k2⟩
    obtain ⟨bs', hs', hk⟩ : ∃ bs', setupBodies A fuel' e n false nB compliance distance size damping = .ok (bs', s0, s1) ∧ bs[k]? = bs'[k]? := by
      cases fixing with
      | false => exact ⟨bs, hs, rfl⟩
      | true =>
        obtain ⟨b, b', rest, q1, q2, -⟩ := C104_fixing h fuel' n e h2 hs
        refine ⟨_, q2, ?_⟩
        rw [q1]
        obtain ⟨k', rfl⟩ : ∃ k', k = k' + 1 := ⟨k - 1, by simp [hm] at k1; omega⟩
        rw [List.getElem?_cons_succ, List.getElem?_cons_succ]
    obtain ⟨g0, g⟩ := C106_ready h fuel' n e hs' hz
    obtain ⟨-, g⟩ := forall₂_getElem.1 g
    have hb : bs'[k]? = some (bs'[k]'(by omega)) := List.getElem?_eq_getElem _
    refine ⟨_, ((2 * d : Nat) : R), damping, _, hk.trans hb, Nat.cast_ne_zero.2 (by omega), rfl, g k (_, _) _ (by
      rw [List.getElem?_zip_eq_some, List.getElem?_replicate, if_pos k2, List.getElem?_map, List.getElem?_range k2]
      exact ⟨rfl, rfl⟩) hb⟩
  · rw [l2, hlen, pyIndex_cast (by omega)]
  · rw [l3, hlen, show (((4 * m : Nat) : Int) + 1) = ((4 * m + 1 : Nat) : Int) by push_cast; rfl, pyIndex_cast hm2]
  · simp only [List.length_cons, List.length_nil]
    omega
  · simp only [List.length_cons, List.length_nil]
    omega

/-- C107: so `step` and the main loop of the examples have no result in the plane and in space. -/
theorem C107_run (hd : d = 2 ∨ d = 3) (hN : ∀ s ∈ A.desc.sig, 0 ≤ s) {rt : Roots R} (hr : RealRoots rt) {fuel : Nat} (hf : 4 ≤ fuel) {tiny : R} (ht : 0 < tiny) (fuel' n : Nat) (e : R → R)
    {fixing : Bool} {nB : Nat} {compliance distance size damping : R} {bs : List (Body R)} {s0 s1 : List (Link R)}
    (hs : setupBodies A fuel' e n fixing nB compliance distance size damping = .ok (bs, s0, s1)) (hnB : (if fixing then 6 else 2) ≤ nB) {dt : R} (hdt : dt ≠ 0) :
    (∀ unroll, unroll ≠ 0 → ¬ ∃ r, step A rt fuel tiny bs [s0, s1] dt unroll = .ok r) ∧ (∀ unroll, ¬ ∃ r, stepTorch A rt fuel tiny bs [s0, s1] dt unroll = .ok r) ∧
    ∀ count, count ≠ 0 → ¬ ∃ r, run A rt fuel tiny count bs [s0, s1] dt = .ok r := by
  have fold : ∀ {n : Nat} {x : R}, n ≠ 0 → x ≠ 0 → ¬ ∃ r, (List.range n).foldlM (fun bodies _ => Link.integrate A rt fuel tiny [s0, s1] bodies x) bs = .ok r := by
    rintro k x hk hx ⟨r, hr'⟩
    obtain ⟨k, rfl⟩ := Nat.exists_eq_succ_of_ne_zero hk
    rw [List.range_succ_eq_map, List.foldlM_cons] at hr'
    obtain ⟨y, hy, -⟩ := bind_ok hr'
    exact C107_chain h hd hN hr hf ht fuel' n e hs hnB hx ⟨y, hy⟩
  have hst : ∀ unroll, unroll ≠ 0 → ¬ ∃ r, step A rt fuel tiny bs [s0, s1] dt unroll = .ok r := fun u hu => fold hu (div_ne_zero hdt (Nat.cast_ne_zero.2 hu))
  refine ⟨hst, fun u => ?_, fun k hk => ?_⟩
  · rintro ⟨r, hr'⟩
    unfold stepTorch at hr'
    split_ifs at hr' with hu
    exact fold (by norm_num) (div_ne_zero hdt (Nat.cast_ne_zero.2 hu)) ⟨r, hr'⟩
  · rintro ⟨⟨r, states⟩, hr'⟩
    obtain ⟨f, f0, f1, -⟩ := C106_run.1 hr'
    have := f1 0 (by omega)
    rw [f0] at this
    exact hst 10 (by norm_num) ⟨_, this⟩

end

/-! ## Concrete cases -/

-- C107: the chain of ten bodies of the examples in space, fixed at its first body; also for `C107_run`
example : ∃ bs s0 s1, setupBodies pga3d 5 (fun x : ℝ => x) 3 true 10 (1 / 10) 2 (1 / 2) (1 / 3) = .ok (bs, s0, s1) ∧
    ¬ ∃ r, run pga3d (realRoots 1) 4 (1 / 10) 1000 bs [s0, s1] (1 / 20) = .ok r := by
  obtain ⟨⟨bs, s0, s1⟩, hs⟩ := (C104_total flat_pga3d 5 3 (fun x : ℝ => x) (by decide) (fixing := true) (nB := 10) (compliance := 1 / 10) (distance := 2)
    (size := 1 / 2) (damping := 1 / 3) (by norm_num)).2 (by norm_num)
  exact ⟨bs, s0, s1, hs, (C107_run flat_pga3d (.inr rfl) (by decide) (realRoots_law 1) (le_refl 4) (by norm_num) 5 3 _ hs (by norm_num) (by norm_num)).2.2 1000 (by norm_num)⟩
-- C107: the chain of six bodies in the plane, fixed at its first body
example : ∃ bs s0 s1, setupBodies pga2s 5 (fun x : ℝ => x) 3 true 6 (1 / 10) 2 (1 / 2) (1 / 3) = .ok (bs, s0, s1) ∧
    ¬ ∃ r, step pga2s (realRoots 1) 4 (1 / 10) bs [s0, s1] (1 / 20) 10 = .ok r := by
  obtain ⟨⟨bs, s0, s1⟩, hs⟩ := (C104_total flat_pga2s 5 3 (fun x : ℝ => x) (by decide) (fixing := true) (nB := 6) (compliance := 1 / 10) (distance := 2)
    (size := 1 / 2) (damping := 1 / 3) (by norm_num)).2 (by norm_num)
  exact ⟨bs, s0, s1, hs, (C107_run flat_pga2s (.inl rfl) (by decide) (realRoots_law 1) (le_refl 4) (by norm_num) 5 3 _ hs (by norm_num) (by norm_num)).1 10 (by norm_num)⟩
-- C107: the chain of two bodies that is not fixed; it meets the hypotheses of `C107_free`, and its only constraint those of `C107_idle`
example : ∃ bs s0 s1, setupBodies pga3d 5 (fun x : ℝ => x) 3 false 2 (1 / 10) 2 (1 / 2) 0 = .ok (bs, s0, s1) ∧ s0 ≠ [] ∧
    (∀ b ∈ bs, Moving pga3d b ∧ ∃ M δ v, M ≠ 0 ∧ δ / M = 0 ∧ Falls pga3d 3 ⟨0, by decide⟩ M (1 / 20) δ 0 v b) ∧
    ∀ s ∈ [s0, s1], Apart bs.length s ∧ ∀ l ∈ s, Proper pga3d l.constraint ∧ Together pga3d bs l := by
  obtain ⟨⟨bs, s0, s1⟩, hs⟩ := (C104_total flat_pga3d 5 3 (fun x : ℝ => x) (by decide) (fixing := false) (nB := 2) (compliance := 1 / 10) (distance := 2)
    (size := 1 / 2) (damping := 0) (by norm_num)).2 (by norm_num)
  obtain ⟨a0, a1, hi, hl⟩ := C104_chain flat_pga3d 5 3 _ two_ne_zero hs
  have hl' : ∀ s ∈ [s0, s1], ∀ l ∈ s, l ∈ s0 ++ s1 := by
    intro s hs l hx
    rcases List.mem_cons.1 hs with rfl | hs
    · exact List.mem_append_left _ hx
    · rw [List.mem_singleton.1 hs] at hx
      exact List.mem_append_right _ hx
  refine ⟨bs, s0, s1, hs, ?_, fun b hb => ⟨C104_moving flat_pga3d 5 3 _ two_ne_zero hs b hb, ?_⟩, fun s hs => ⟨?_, fun l hl0 => ?_⟩⟩
  · rintro rfl
    obtain ⟨l, l1, -⟩ := hi 0 (by norm_num)
    simp at l1
  · obtain ⟨-, g⟩ := C106_ready flat_pga3d 5 3 _ hs (by decide)
    obtain ⟨g0, g⟩ := forall₂_getElem.1 g
    obtain ⟨k, hk⟩ := List.mem_iff_getElem?.1 hb
    have hk' := (List.getElem?_eq_some_iff.1 hk).1
    rw [← g0] at hk'
    exact ⟨_, 0, _, by rw [List.getElem_zip, List.getElem_replicate]; norm_num, by simp, g k _ b (List.getElem?_eq_getElem hk') hk⟩
  · rcases List.mem_cons.1 hs with rfl | hs
    · exact a0
    · rw [List.mem_singleton.1 hs]; exact a1
  · obtain ⟨⟨q1, q2, q3, q4, -⟩, i, -, -, -, b0, b1, p, p1, p2, p3, p4, -⟩ := hl l (hl' s hs l hl0)
    exact ⟨⟨q1, q2, q3, q4⟩, b0, b1, p, p1, p2, p3, p4⟩

end Verif.Props
