import Verif.Proofs.System
import Verif.Props.Physics5
/-! # Sets of bodies and of constraints (C99) -/
namespace Verif.Props
open Model Spec Model.Factory

variable {A : Alg} {R : Type}

section
variable [Field R] [DecidableEq R]

/-- A body that passed the constructor, with arrays of the right lengths. -/
def Sound (A : Alg) (b : Body R) : Prop :=
  b.init A = .ok b ∧ b.motor.vals.length = b.motor.sub.blades.length ∧ b.rate.vals.length = b.rate.sub.blades.length

/-- Replacing the array of the motor of a body. -/
def putMotor (A : Alg) (b : Body R) (m : MV R) : Except Fail (Body R) := do b.copy A (some (← lift (b.motor.copy m.vals))) none none none

/-- Replacing the array of the rate of a body. -/
def putRate (A : Alg) (b : Body R) (r : MV R) : Except Fail (Body R) := do b.copy A none (some (← lift (b.rate.copy r.vals))) none none

theorem copy_vals {x y : MV R} {v : List R} (h : x.copy v = some y) : y = ⟨x.sub, v⟩ ∧ v.length = x.sub.blades.length := by
  unfold MV.copy MV.construct at h
  split_ifs at h with hl
  cases h
  exact ⟨rfl, by simpa using hl⟩

theorem copy_self {x : MV R} (h : x.vals.length = x.sub.blades.length) : x.copy x.vals = some x := by
  unfold MV.copy MV.construct
  rw [if_pos (by simpa using h)]

theorem putMotor_ok {b c : Body R} {m : MV R} (h : putMotor A b m = .ok c) :
    c = { b with motor := ⟨b.motor.sub, m.vals⟩ } ∧ m.vals.length = b.motor.sub.blades.length ∧ c.init A = .ok c := by
  obtain ⟨x, h1, h⟩ := bind_ok h
  obtain ⟨rfl, hl⟩ := copy_vals (lift_ok h1)
  obtain ⟨rfl, hi⟩ := copy_ok h
  exact ⟨rfl, hl, hi⟩

theorem putRate_ok {b c : Body R} {m : MV R} (h : putRate A b m = .ok c) :
    c = { b with rate := ⟨b.rate.sub, m.vals⟩ } ∧ m.vals.length = b.rate.sub.blades.length ∧ c.init A = .ok c := by
  obtain ⟨x, h1, h⟩ := bind_ok h
  obtain ⟨rfl, hl⟩ := copy_vals (lift_ok h1)
  obtain ⟨rfl, hi⟩ := copy_ok h
  exact ⟨rfl, hl, hi⟩

theorem Sound.motor {b c : Body R} {m : MV R} (hb : Sound A b) (h : putMotor A b m = .ok c) : Sound A c := by
  obtain ⟨rfl, hl, hi⟩ := putMotor_ok h
  exact ⟨hi, hl, hb.2.2⟩

theorem Sound.rate {b c : Body R} {m : MV R} (hb : Sound A b) (h : putRate A b m = .ok c) : Sound A c := by
  obtain ⟨rfl, hl, hi⟩ := putRate_ok h
  exact ⟨hi, hb.2.1, hl⟩

/-! ## C99 -/

/-- C99: `apply` of constraints between different bodies: every constraint changes the motors of its two bodies, computed from the old
bodies, and every other body stays as it was. -/
theorem C99_apply {rt : Roots R} {fuel : Nat} {tiny dt : R} {links : List (Link R)} {bs r : List (Body R)} (hb : ∀ b ∈ bs, Sound A b) (hN : Apart bs.length links) :
    Link.apply A rt fuel tiny links bs dt = .ok r ↔
      Applied (fun l b0 b1 => l.constraint.applyIndexed A rt fuel tiny b0.motor b1.motor b0.inertiaInv b1.inertiaInv dt) (putMotor A) links bs r := by
  have := scatter_iff (F := fun l b0 b1 => l.constraint.applyIndexed A rt fuel tiny b0.motor b1.motor b0.inertiaInv b1.inertiaInv dt) (get := fun b : Body R => b.motor.vals)
    (vals := fun m : MV R => m.vals) (put := fun b v => do b.copy A (some (← lift (b.motor.copy v))) none none none) (links := links) (bs := bs) (r := r) hN ?_ ?_
  · exact this
  · intro b h
    show (lift (b.motor.copy b.motor.vals) >>= _) = _
    rw [copy_self (hb b h).2.1]
    exact (hb b h).1
  · intro b h v c hc
    obtain ⟨rfl, hl, -⟩ := putMotor_ok (m := ⟨b.motor.sub, v⟩) hc
    exact ⟨rfl, hl.trans (hb b h).2.1.symm⟩

/-- C99: the same for `v_apply` and the rates. -/
theorem C99_vApply {rt : Roots R} {fuel : Nat} {tiny : R} {links : List (Link R)} {bs r : List (Body R)} (hb : ∀ b ∈ bs, Sound A b) (hN : Apart bs.length links) :
    Link.vApply A rt fuel tiny links bs = .ok r ↔
      Applied (fun l b0 b1 => l.constraint.vApplyIndexed A rt fuel tiny b0.motor b1.motor b0.rate b1.rate b0.inertiaInv b1.inertiaInv) (putRate A) links bs r := by
  have := scatter_iff (F := fun l b0 b1 => l.constraint.vApplyIndexed A rt fuel tiny b0.motor b1.motor b0.rate b1.rate b0.inertiaInv b1.inertiaInv)
    (get := fun b : Body R => b.rate.vals) (vals := fun m : MV R => m.vals) (put := fun b v => do b.copy A none (some (← lift (b.rate.copy v))) none none) (links := links)
    (bs := bs) (r := r) hN ?_ ?_
  · exact this
  · intro b h
    show (lift (b.rate.copy b.rate.vals) >>= _) = _
    rw [copy_self (hb b h).2.2]
    exact (hb b h).1
  · intro b h v c hc
    obtain ⟨rfl, hl, -⟩ := putRate_ok (m := ⟨b.rate.sub, v⟩) hc
    exact ⟨rfl, hl.trans (hb b h).2.2.symm⟩

/-- C99: constraints between different bodies may be applied all at once, or one after the other in any order. -/
theorem C99_order {rt : Roots R} {fuel : Nat} {tiny dt : R} {links links' : List (Link R)} (hp : links.Perm links') {bs r : List (Body R)} (hb : ∀ b ∈ bs, Sound A b)
    (hN : Apart bs.length links) :
    (Link.apply A rt fuel tiny links bs dt = .ok r ↔ links'.foldlM (fun bs l => Link.apply A rt fuel tiny [l] bs dt) bs = .ok r) ∧
    (Link.vApply A rt fuel tiny links bs = .ok r ↔ links'.foldlM (fun bs l => Link.vApply A rt fuel tiny [l] bs) bs = .ok r) := by
  have hN' := (Apart.perm hp).1 hN
  refine ⟨?_, ?_⟩
  · rw [C99_apply hb hN, Applied.perm hp]
    exact Applied.fold (Sound A) (fun _ _ _ h1 h2 => h1.motor h2) (fun bs r l h1 h2 => C99_apply h1 h2) hb hN'
  · rw [C99_vApply hb hN, Applied.perm hp]
    exact Applied.fold (Sound A) (fun _ _ _ h1 h2 => h1.rate h2) (fun bs r l h1 h2 => C99_vApply h1 h2) hb hN'

/-- C99: two constraints that share a body: the first one in a row of constraints decides about it, and the step that the second one makes
for it is lost. -/
theorem C99_shared {rt : Roots R} {fuel : Nat} {tiny : R} {l l' : Link R} {bs r : List (Body R)} {i j k : Nat}
    (hi : pyIndex bs.length l.idx0 = some i) (hj : pyIndex bs.length l.idx1 = some j) (hj' : pyIndex bs.length l'.idx0 = some j)
    (hk : pyIndex bs.length l'.idx1 = some k) (hij : i ≠ j) (hik : i ≠ k) (hjk : j ≠ k) (hb : ∀ b ∈ bs, Sound A b) (h : Link.vApply A rt fuel tiny [l, l'] bs = .ok r) :
    ∃ b0 b1 b2 n0 n1 n1' n2 c0 c1 c2, bs[i]? = some b0 ∧ bs[j]? = some b1 ∧ bs[k]? = some b2 ∧
      l.constraint.vApplyIndexed A rt fuel tiny b0.motor b1.motor b0.rate b1.rate b0.inertiaInv b1.inertiaInv = .ok (n0, n1) ∧
      l'.constraint.vApplyIndexed A rt fuel tiny b1.motor b2.motor b1.rate b2.rate b1.inertiaInv b2.inertiaInv = .ok (n1', n2) ∧
      putRate A b0 n0 = .ok c0 ∧ putRate A b1 n1 = .ok c1 ∧ putRate A b2 n2 = .ok c2 ∧ r = ((bs.set i c0).set j c1).set k c2 := by
  obtain ⟨res, g1, h⟩ := bind_ok h
  obtain ⟨rows, g2, h'⟩ := bind_ok h
  obtain ⟨x, _, a1, g1a, rfl⟩ := List.forall₂_cons_left_iff.1 (mapM_iff.1 g1)
  obtain ⟨y, _, a2, g1b, rfl⟩ := List.forall₂_cons_left_iff.1 g1a
  cases List.forall₂_nil_left_iff.1 g1b
  obtain ⟨b0, q0, a1⟩ := bind_ok a1
  obtain ⟨b1, q1, a1⟩ := bind_ok a1
  obtain ⟨b1', q2, a2⟩ := bind_ok a2
  obtain ⟨b2, q3, a2⟩ := bind_ok a2
  obtain ⟨_, z0, e0⟩ := pyGet_ok.1 q0
  obtain ⟨_, z1, e1⟩ := pyGet_ok.1 q1
  obtain ⟨_, z1', e1'⟩ := pyGet_ok.1 q2
  obtain ⟨_, z2, e2⟩ := pyGet_ok.1 q3
  cases hi.symm.trans z0
  cases hj.symm.trans z1
  cases hj'.symm.trans z1'
  cases hk.symm.trans z2
  cases e1.symm.trans e1'
  have g2 := lift_ok g2
  have hlen := setRows_length g2
  have hlast := setRows_last g2
  simp only [List.length_map] at hlen hlast
  simp only [Link.bodyIdx, List.map_cons, List.map_nil, List.cons_append, List.nil_append, List.zip_cons_cons, List.zip_nil_right, List.reverse_cons, List.reverse_nil,
    List.find?_cons, List.find?_nil, hi, hj, hj', hk, List.getElem?_map] at hlast
  have ri : rows[i]? = some x.1.vals := by
    rw [hlast i]
    simp [hij.symm, hik.symm, beq_false_of_ne]
  have rj : rows[j]? = some x.2.vals := by
    rw [hlast j]
    simp [hjk.symm, beq_false_of_ne]
  have rk : rows[k]? = some y.2.vals := by
    rw [hlast k]
    simp
  obtain ⟨l2, g3⟩ := forall₂_getElem.1 (mapM_iff.1 h')
  have lr : r.length = bs.length := by rw [← l2, List.length_zip, hlen, min_self]
  have at' : ∀ {t : Nat} {b : Body R} {v : MV R}, bs[t]? = some b → rows[t]? = some v.vals → ∃ c, r[t]? = some c ∧ putRate A b v = .ok c := by
    intro t b v e1 e2
    obtain ⟨ht, -⟩ := List.getElem?_eq_some_iff.1 e1
    refine ⟨r[t]'(lr ▸ ht), List.getElem?_eq_getElem _, ?_⟩
    exact g3 t (b, v.vals) _ (by rw [List.getElem?_zip_eq_some]; exact ⟨e1, e2⟩) (List.getElem?_eq_getElem _)
  obtain ⟨c0, r0, p0⟩ := at' e0 ri
  obtain ⟨c1, r1, p1⟩ := at' e1 rj
  obtain ⟨c2, r2, p2⟩ := at' e2 rk
  refine ⟨b0, b1, b2, x.1, x.2, y.1, y.2, c0, c1, c2, e0, e1, e2, a1, a2, p0, p1, p2, List.ext_getElem? fun t => ?_⟩
  by_cases h2 : k = t
  · subst h2
    rw [r2, List.getElem?_set_self (by simpa using pyIndex_lt hk)]
  by_cases h1 : j = t
  · subst h1
    rw [r1, List.getElem?_set_ne h2, List.getElem?_set_self (by simpa using pyIndex_lt hj)]
  by_cases h0 : i = t
  · subst h0
    rw [r0, List.getElem?_set_ne h2, List.getElem?_set_ne h1, List.getElem?_set_self (pyIndex_lt hi)]
  rw [List.getElem?_set_ne h2, List.getElem?_set_ne h1, List.getElem?_set_ne h0]
  cases e : bs[t]? with
  | none =>
    rw [List.getElem?_eq_none_iff] at e ⊢
    omega
  | some b =>
    have hr : rows[t]? = some b.rate.vals := by
      rw [hlast t]
      simp [h0, h1, h2, e, beq_false_of_ne]
    obtain ⟨c, rc, pc⟩ := at' e hr
    have : putRate A b b.rate = .ok b := by
      show (lift (b.rate.copy b.rate.vals) >>= _) = _
      rw [copy_self (hb b (List.mem_of_getElem? e)).2.2]
      exact (hb b (List.mem_of_getElem? e)).1
    cases this.symm.trans pc
    exact rc

/-- C99: indexing a set of bodies with a list of integers picks these bodies. -/
theorem C99_take {bs r : List (Body R)} (hb : ∀ b ∈ bs, Sound A b) {idx : List Int} :
    takeBodies A bs idx = .ok r ↔ List.Forall₂ (fun i b => ∃ k, pyIndex bs.length i = some k ∧ bs[k]? = some b) idx r := by
  have key : ∀ (i : Int) (b : Body R), (do (← lift (pyGet bs i)).init A) = .ok b ↔ ∃ k, pyIndex bs.length i = some k ∧ bs[k]? = some b := by
    intro i b
    rw [← pyGet_ok]
    constructor
    · intro h
      obtain ⟨x, h1, h2⟩ := bind_ok h
      obtain ⟨k, -, e⟩ := pyGet_ok.1 h1
      cases (hb x (List.mem_of_getElem? e)).1.symm.trans h2
      exact h1
    · intro h
      obtain ⟨k, -, e⟩ := pyGet_ok.1 h
      rw [h]
      exact (hb b (List.mem_of_getElem? e)).1
  unfold takeBodies
  rw [mapM_iff]
  exact ⟨fun h => h.imp fun i b => (key i b).1, fun h => h.imp fun i b => (key i b).2⟩

theorem Made.sound (hA : WfAlg A) (hn : 2 ≤ A.n) {S : SubSpace} (hS : WfSub A S) {rows : List (List R)} {b : Body R} (h : Made A S rows b) : Sound A b := by
  obtain ⟨⟨B, L, hb⟩, -⟩ := h.live hA hn hS
  refine ⟨?_, hb.motorWf.2, hb.rateWf.2⟩
  cases h with
  | cloud h =>
    unfold Body.fromPointCloud at h
    obtain ⟨_, -, h⟩ := bind_ok h
    obtain ⟨_, -, h⟩ := bind_ok h
    split_ifs at h
    · repeat
        obtain ⟨_, -, h⟩ := bind_ok h
      have e := (init_ok h).1
      rw [← e] at h
      exact h
  | copy _ _ _ _ _ hc => exact (copy_ok hc).2

/-- A body made of points, whose motor has unit norm. -/
def Moving (A : Alg) (b : Body R) : Prop :=
  (∃ S rows, WfSub A S ∧ Made A S rows b) ∧ val A b.motor * CliffordAlgebra.reverse (val A b.motor) = 1

/-- The bodies have the momenta `ps`, seen from the world. -/
def Momenta (A : Alg) (bs : List (Body R)) (ps : List (Cl A R)) : Prop :=
  List.Forall₂ (fun b p => Gives A (do b.motor.sandwich A (← einsumCallMV b.inertia [b.rate])) p) bs ps

/-- The value of an expression, for sums. -/
def value (A : Alg) (r : Option (MV R)) : Cl A R := match r with
  | some z => val A z
  | none => 0

theorem value_gives {r : Option (MV R)} {v : Cl A R} (h : Gives A r v) : value A r = v := by
  obtain ⟨z, rfl, -, rfl⟩ := h
  rfl

/-- The momentum of a body. -/
def mu (A : Alg) (b : Body R) : Cl A R := value A (do b.motor.sandwich A (← einsumCallMV b.inertia [b.rate]))

theorem Moving.world (hA : WfAlg A) (hn : 2 ≤ A.n) {b : Body R} (h : Moving A b) {r : MV R} (hr : WfMV A r) (hs : A.bivector = some r.sub) :
    ∃ L, A.antibivector = some L ∧ ∃ v, GivesIn A (do b.motor.sandwich A (← einsumCallMV b.inertia [r])) L v := by
  obtain ⟨⟨S, rows, hS, hM⟩, -⟩ := h
  obtain ⟨⟨B, L, hb⟩, -⟩ := hM.live hA hn hS
  exact ⟨L, hb.antibivector, _, world_in hA hb hr (Option.some.inj (hs.symm.trans hb.bivector))⟩

theorem Moving.rate (hA : WfAlg A) (hn : 2 ≤ A.n) {b : Body R} (h : Moving A b) : WfMV A b.rate ∧ A.bivector = some b.rate.sub := by
  obtain ⟨⟨S, rows, hS, hM⟩, -⟩ := h
  obtain ⟨⟨B, L, hb⟩, -⟩ := hM.live hA hn hS
  exact ⟨hb.rateWf, by rw [hb.rateSub]; exact hb.bivector⟩

theorem Moving.sound (hA : WfAlg A) (hn : 2 ≤ A.n) {b : Body R} (h : Moving A b) : Sound A b := by
  obtain ⟨⟨S, rows, hS, hM⟩, -⟩ := h
  exact hM.sound hA hn hS

/-- Replacing the rate keeps a body a body. -/
theorem Moving.putRate (hA : WfAlg A) (hn : 2 ≤ A.n) {b c : Body R} (h : Moving A b) {r : MV R} (hc : putRate A b r = .ok c) : Moving A c := by
  obtain ⟨h1, -⟩ := h.rate hA hn
  obtain ⟨⟨S, rows, hS, hM⟩, hu⟩ := h
  obtain ⟨x, g, hc'⟩ := bind_ok hc
  obtain ⟨rfl, hl⟩ := copy_vals (lift_ok g)
  refine ⟨⟨S, rows, hS, .copy hM (by simp) ?_ (by simp) (by simp) hc'⟩, ?_⟩
  · intro x hx
    cases hx
    exact ⟨h1.1, hl⟩
  · obtain ⟨rfl, -⟩ := copy_ok hc'
    exact hu

theorem pair_mu (hA : WfAlg A) (hn : 2 ≤ A.n) {b0 b1 c0 c1 : Body R} (m0 : Moving A b0) (m1 : Moving A b1) {r0 r1 : MV R} (w0 : WfMV A r0) (w1 : WfMV A r1)
    (s0 : A.bivector = some r0.sub) (s1 : A.bivector = some r1.sub)
    (h : ∃ q : Cl A R,
      Gives A (do (← b0.motor.sandwich A (← einsumCallMV b0.inertia [b0.rate])).add A (.mv (← b1.motor.sandwich A (← einsumCallMV b1.inertia [b1.rate])))) q ∧
      Gives A (do (← b0.motor.sandwich A (← einsumCallMV b0.inertia [r0])).add A (.mv (← b1.motor.sandwich A (← einsumCallMV b1.inertia [r1])))) q)
    (p0 : putRate A b0 r0 = .ok c0) (p1 : putRate A b1 r1 = .ok c1) : mu A c0 + mu A c1 = mu A b0 + mu A b1 := by
  obtain ⟨z0, t0⟩ := m0.rate hA hn
  obtain ⟨z1, t1⟩ := m1.rate hA hn
  have e0 : c0 = { b0 with rate := r0 } := by
    rw [(putRate_ok p0).1, Option.some.inj (t0.symm.trans s0)]
  have e1 : c1 = { b1 with rate := r1 } := by
    rw [(putRate_ok p1).1, Option.some.inj (t1.symm.trans s1)]
  subst e0 e1
  obtain ⟨q, h1, h2⟩ := h
  have two : ∀ {r0 r1 : MV R}, WfMV A r0 → WfMV A r1 → A.bivector = some r0.sub → A.bivector = some r1.sub → ∀ {q : Cl A R},
      Gives A (do (← b0.motor.sandwich A (← einsumCallMV b0.inertia [r0])).add A (.mv (← b1.motor.sandwich A (← einsumCallMV b1.inertia [r1])))) q →
      value A (do b0.motor.sandwich A (← einsumCallMV b0.inertia [r0])) + value A (do b1.motor.sandwich A (← einsumCallMV b1.inertia [r1])) = q := by
    intro r0 r1 w0 w1 s0 s1 q hq
    obtain ⟨L, l1, v, x, x1, x2, x3, x4⟩ := m0.world hA hn w0 s0
    obtain ⟨L', l1', v', y, y1, y2, y3, y4⟩ := m1.world hA hn w1 s1
    cases l1.symm.trans l1'
    have g := (add_in hA x3 y3 (by rw [x2, y2]; exact fun _ h => h)).1.gives
    have : (do (← b0.motor.sandwich A (← einsumCallMV b0.inertia [r0])).add A (.mv (← b1.motor.sandwich A (← einsumCallMV b1.inertia [r1])))) = x.add A (.mv y) := by
      have e : ∀ (a : Option (MV R)) (f : MV R → Option (MV R)) (c : Option (MV R)) (g : MV R → Option (MV R)), (do f (← a)) = some x → (do g (← c)) = some y →
          (do (← f (← a)).add A (.mv (← g (← c)))) = x.add A (.mv y) := by
        intro a f c g ha hc
        cases a with
        | none => cases ha
        | some a =>
          cases c with
          | none => cases hc
          | some c =>
            have ha : f a = some x := ha
            have hc : g c = some y := hc
            show (f a >>= fun u => g c >>= fun w => u.add A (.mv w)) = _
            rw [ha, hc]
            rfl
      exact e _ _ _ _ x1 y1
    rw [this] at hq
    rw [x1, y1]
    obtain ⟨z, e, -, rfl⟩ := hq
    obtain ⟨z', e', -, hz⟩ := g
    cases e.symm.trans e'
    exact hz.symm
  exact (two w0 w1 s0 s1 h2).trans (two z0 z1 t0 t1 h1).symm

theorem momenta (hA : WfAlg A) (hn : 2 ≤ A.n) {bs : List (Body R)} (h : ∀ b ∈ bs, Moving A b) : Momenta A bs (bs.map (mu A)) := by
  unfold Momenta
  rw [List.forall₂_map_right_iff, List.forall₂_same]
  intro b hb
  obtain ⟨w, s⟩ := (h b hb).rate hA hn
  obtain ⟨L, -, v, hv⟩ := (h b hb).world hA hn w s
  rw [show mu A b = v from value_gives hv.gives]
  exact hv.gives

/-- `v_apply` keeps bodies bodies. -/
theorem vApply_moving (hA : WfAlg A) (hn : 2 ≤ A.n) {F : Link R → Body R → Body R → Except Fail (MV R × MV R)} {links : List (Link R)} {bs r : List (Body R)}
    (hb : ∀ b ∈ bs, Moving A b) (h : Applied F (putRate A) links bs r) : ∀ b ∈ r, Moving A b := by
  intro b hbm
  obtain ⟨k, hk⟩ := List.mem_iff_getElem?.1 hbm
  obtain ⟨b', e, rfl | ⟨_, _, _, _, _, _, _, _, _, _, _, _, _, ⟨-, p⟩ | ⟨-, p⟩⟩⟩ := h.mem hk
  · exact hb _ (List.mem_of_getElem? e)
  · exact (hb _ (List.mem_of_getElem? e)).putRate hA hn p
  · exact (hb _ (List.mem_of_getElem? e)).putRate hA hn p

/-- C99: in the plane `v_apply` of constraints between different bodies conserves the sum of the momenta of all bodies. -/
theorem C99_momentum_plane (hA : WfAlg A) (h3 : A.n = 3) (h2 : (2 : R) ≠ 0) (h0 : ∃ j < A.n, A.desc.sig.getD j 0 ≠ 0) {rt : Roots R} (hr : RootLaw rt) {fuel : Nat}
    {tiny : R} {links : List (Link R)} {bs r : List (Body R)} (hb : ∀ b ∈ bs, Moving A b) (hN : Apart bs.length links)
    (hl : ∀ l ∈ links, l.constraint.init A = .ok l.constraint ∧ WfMV A l.constraint.anchor0 ∧ WfMV A l.constraint.anchor1 ∧ WfMV A l.constraint.compliance)
    (h : Link.vApply A rt (fuel + 1) tiny links bs = .ok r) :
    ∃ ps qs, Momenta A bs ps ∧ Momenta A r qs ∧ ps.sum = qs.sum := by
  have hn : 2 ≤ A.n := by omega
  rw [C99_vApply (fun b h => (hb b h).sound hA hn) hN] at h
  refine ⟨_, _, momenta hA hn hb, momenta hA hn (vApply_moving hA hn hb h), (h.sum (mu A) hN ?_).symm⟩
  intro l hl' i j b0 b1 n0 n1 c0 c1 _ _ e0 e1 hF p0 p1
  have m0 := hb b0 (List.mem_of_getElem? e0)
  have m1 := hb b1 (List.mem_of_getElem? e1)
  obtain ⟨⟨S0, rows0, hS0, hM0⟩, u0⟩ := id m0
  obtain ⟨⟨S1, rows1, hS1, hM1⟩, u1⟩ := id m1
  obtain ⟨l1, l2, l3, l4⟩ := hl l hl'
  obtain ⟨w0, w1, s0, s1, hq⟩ := C97_velocity hA h3 h2 h0 hr hS0 hS1 hM0 hM1 u0 u1 l1 l2 l3 l4 hF
  exact pair_mu hA hn m0 m1 w0 w1 s0 s1 hq p0 p1

/-- C99: in space `v_apply` of constraints between different bodies, the two anchors of each at the same place in the world, conserves the
sum of the momenta of all bodies. -/
theorem C99_momentum_space (hA : WfAlg A) (h4 : A.n = 4) (h2 : (2 : R) ≠ 0)
    (h0 : ∃ i j, i < j ∧ j < A.n ∧ A.desc.sig.getD i 0 ≠ 0 ∧ A.desc.sig.getD j 0 ≠ 0) {rt : Roots R} (hr : RootLaw rt) {fuel : Nat}
    {tiny : R} {links : List (Link R)} {bs r : List (Body R)} (hb : ∀ b ∈ bs, Moving A b) (hN : Apart bs.length links)
    (hl : ∀ l ∈ links, l.constraint.init A = .ok l.constraint ∧ WfMV A l.constraint.anchor0 ∧ WfMV A l.constraint.anchor1 ∧ WfMV A l.constraint.compliance)
    (hp : ∀ l ∈ links, ∀ b0 b1, pyGet bs l.idx0 = some b0 → pyGet bs l.idx1 = some b1 →
      ∃ p, Gives A (b0.motor.sandwich A l.constraint.anchor0) p ∧ Gives A (b1.motor.sandwich A l.constraint.anchor1) p)
    (h : Link.vApply A rt (fuel + 2) tiny links bs = .ok r) :
    ∃ ps qs, Momenta A bs ps ∧ Momenta A r qs ∧ ps.sum = qs.sum := by
  have hn : 2 ≤ A.n := by omega
  rw [C99_vApply (fun b h => (hb b h).sound hA hn) hN] at h
  refine ⟨_, _, momenta hA hn hb, momenta hA hn (vApply_moving hA hn hb h), (h.sum (mu A) hN ?_).symm⟩
  intro l hl' i j b0 b1 n0 n1 c0 c1 hi hj e0 e1 hF p0 p1
  have m0 := hb b0 (List.mem_of_getElem? e0)
  have m1 := hb b1 (List.mem_of_getElem? e1)
  obtain ⟨⟨S0, rows0, hS0, hM0⟩, u0⟩ := id m0
  obtain ⟨⟨S1, rows1, hS1, hM1⟩, u1⟩ := id m1
  obtain ⟨l1, l2, l3, l4⟩ := hl l hl'
  obtain ⟨p, g0, g1⟩ := hp l hl' b0 b1 (by rw [pyGet, hi]; exact e0) (by rw [pyGet, hj]; exact e1)
  obtain ⟨w0, w1, s0, s1, hq⟩ := C98_velocity hA h4 h2 h0 hr hS0 hS1 hM0 hM1 u0 u1 l1 l2 l3 l4 g0 g1 hF
  exact pair_mu hA hn m0 m1 w0 w1 s0 s1 hq p0 p1

/-- C99: in the plane, when two constraints share a body, the sum of the momenta is conserved only if the step that is lost did not change
the momentum of that body. -/
theorem C99_lost (hA : WfAlg A) (h3 : A.n = 3) (h2 : (2 : R) ≠ 0) (h0 : ∃ j < A.n, A.desc.sig.getD j 0 ≠ 0) {rt : Roots R} (hr : RootLaw rt) {fuel : Nat} {tiny : R}
    {l l' : Link R} {bs r : List (Body R)} {i j k : Nat}
    (hi : pyIndex bs.length l.idx0 = some i) (hj : pyIndex bs.length l.idx1 = some j) (hj' : pyIndex bs.length l'.idx0 = some j)
    (hk : pyIndex bs.length l'.idx1 = some k) (hij : i ≠ j) (hik : i ≠ k) (hjk : j ≠ k) (hb : ∀ b ∈ bs, Moving A b)
    (hl : ∀ x ∈ [l, l'], x.constraint.init A = .ok x.constraint ∧ WfMV A x.constraint.anchor0 ∧ WfMV A x.constraint.anchor1 ∧ WfMV A x.constraint.compliance)
    (h : Link.vApply A rt (fuel + 1) tiny [l, l'] bs = .ok r) :
    ∃ ps qs b1 b2 s t p q, Momenta A bs ps ∧ Momenta A r qs ∧ bs[j]? = some b1 ∧ bs[k]? = some b2 ∧
      l'.constraint.vApplyIndexed A rt (fuel + 1) tiny b1.motor b2.motor b1.rate b2.rate b1.inertiaInv b2.inertiaInv = .ok (s, t) ∧
      Gives A (do b1.motor.sandwich A (← einsumCallMV b1.inertia [b1.rate])) p ∧ Gives A (do b1.motor.sandwich A (← einsumCallMV b1.inertia [s])) q ∧
      qs.sum = ps.sum - (q - p) := by
  have hn : 2 ≤ A.n := by omega
  obtain ⟨b0, b1, b2, n0, n1, n1', n2, c0, c1, c2, e0, e1, e2, f1, f2, p0, p1, p2, rfl⟩ :=
    C99_shared hi hj hj' hk hij hik hjk (fun b h => (hb b h).sound hA hn) h
  have m0 := hb b0 (List.mem_of_getElem? e0)
  have m1 := hb b1 (List.mem_of_getElem? e1)
  have m2 := hb b2 (List.mem_of_getElem? e2)
  obtain ⟨⟨S0, rows0, hS0, hM0⟩, u0⟩ := id m0
  obtain ⟨⟨S1, rows1, hS1, hM1⟩, u1⟩ := id m1
  obtain ⟨⟨S2, rows2, hS2, hM2⟩, u2⟩ := id m2
  obtain ⟨l1, l2, l3, l4⟩ := hl l (by simp)
  obtain ⟨l1', l2', l3', l4'⟩ := hl l' (by simp)
  obtain ⟨w0, w1, s0, s1, hq⟩ := C97_velocity hA h3 h2 h0 hr hS0 hS1 hM0 hM1 u0 u1 l1 l2 l3 l4 f1
  obtain ⟨w1', w2, s1', s2, hq'⟩ := C97_velocity hA h3 h2 h0 hr hS1 hS2 hM1 hM2 u1 u2 l1' l2' l3' l4' f2
  have q1 := pair_mu hA hn m0 m1 w0 w1 s0 s1 hq p0 p1
  obtain ⟨z1, t1⟩ := m1.rate hA hn
  have hput : putRate A b1 n1' = .ok { b1 with rate := n1' } := by
    have e := Option.some.inj (t1.symm.trans s1')
    have hc : b1.rate.copy n1'.vals = some n1' := by
      unfold MV.copy MV.construct
      rw [e, if_pos (by simpa using w1'.2)]
    show (lift (b1.rate.copy n1'.vals) >>= _) = _
    rw [hc]
    have hs := (m1.sound hA hn).1
    show Body.init A { b1 with rate := n1' } = _
    unfold Body.init at hs ⊢
    split_ifs at hs with ha
    rw [if_pos]
    unfold Body.asserts at ha ⊢
    rw [e] at ha
    exact ha
  have q2 := pair_mu hA hn m1 m2 w1' w2 s1' s2 hq' hput p2
  have hr' : ∀ b ∈ ((bs.set i c0).set j c1).set k c2, Moving A b := by
    intro b hbm
    rcases List.mem_or_eq_of_mem_set hbm with hbm | rfl
    · rcases List.mem_or_eq_of_mem_set hbm with hbm | rfl
      · rcases List.mem_or_eq_of_mem_set hbm with hbm | rfl
        · exact hb b hbm
        · exact m0.putRate hA hn p0
      · exact m1.putRate hA hn p1
    · exact m2.putRate hA hn p2
  obtain ⟨L, -, p, hp⟩ := m1.world hA hn z1 t1
  obtain ⟨L', -, q, hq⟩ := m1.world hA hn w1' s1'
  refine ⟨_, _, b1, b2, n1', n2, p, q, momenta hA hn hb, momenta hA hn hr', e1, e2, f2, hp.gives, hq.gives, ?_⟩
  rw [sum_set _ (b := b2) (by rw [List.getElem?_set_ne hjk, List.getElem?_set_ne hik, e2]), sum_set _ (b := b1) (by rw [List.getElem?_set_ne hij, e1]), sum_set _ e0]
  have x1 : mu A b1 = p := value_gives hp.gives
  have x2 : mu A ({ b1 with rate := n1' } : Body R) = q := value_gives hq.gives
  rw [x2, x1] at q2
  rw [x1] at q1 ⊢
  have y1 : mu A c2 = p + mu A b2 - q := by rw [← q2]; abel
  have y2 : mu A c1 = mu A b0 + p - mu A c0 := by rw [← q1]; abel
  rw [y1, y2]
  abel

/-- `c` is made of the same points as `b`, and its motor has unit norm. -/
def Moved (A : Alg) (b c : Body R) : Prop :=
  (∀ S rows, WfSub A S → Made A S rows b → Made A S rows c) ∧ val A c.motor * CliffordAlgebra.reverse (val A c.motor) = 1

theorem Moving.moved {b c : Body R} (h : Moving A b) (hm : Moved A b c) : Moving A c := by
  obtain ⟨⟨S, rows, hS, hM⟩, -⟩ := h
  exact ⟨⟨S, rows, hS, hm.1 S rows hS hM⟩, hm.2⟩

theorem Moved.trans {b c d : Body R} (h1 : Moved A b c) (h2 : Moved A c d) : Moved A b d :=
  ⟨fun S rows hS hM => h2.1 S rows hS (h1.1 S rows hS hM), h2.2⟩

theorem moved_trans {bs cs ds : List (Body R)} (h1 : List.Forall₂ (Moved A) bs cs) (h2 : List.Forall₂ (Moved A) cs ds) : List.Forall₂ (Moved A) bs ds := by
  induction h1 generalizing ds with
  | nil => cases h2; exact .nil
  | cons h _ ih =>
    cases h2 with
    | cons h' h2 => exact .cons (h.trans h') (ih h2)

theorem moving_all {bs cs : List (Body R)} (h : List.Forall₂ (Moved A) bs cs) (hb : ∀ b ∈ bs, Moving A b) : ∀ b ∈ cs, Moving A b := by
  induction h with
  | nil => simp
  | cons h _ ih =>
    intro b hbm
    rcases List.mem_cons.1 hbm with rfl | hbm
    · exact (hb _ (by simp)).moved h
    · exact ih (fun x hx => hb x (by simp [hx])) b hbm

theorem moved_copy {b c : Body R} {m : MV R} {r : Option (MV R)} (hm : WfMV A m) (hr : ∀ x ∈ r, WfMV A x)
    (hu : val A m * CliffordAlgebra.reverse (val A m) = 1) (hc : b.copy A (some m) r none none = .ok c) : Moved A b c := by
  refine ⟨fun S rows _ hM => .copy hM (by rintro x ⟨⟩; exact hm) hr (by simp) (by simp) hc, ?_⟩
  rw [(copy_ok hc).1]
  exact hu

theorem pre_moved (hA : WfAlg A) (hn : 2 ≤ A.n) (h2 : (2 : R) ≠ 0) {rt : Roots R} (hr : RootLaw rt) {fuel : Nat} (hf : 2 ≤ fuel) {b c : Body R} (hb : Moving A b)
    {dt : R} (h : b.preIntegrate A rt fuel dt = .ok c) : Moved A b c := by
  obtain ⟨⟨S, rows, hS, hM⟩, hu⟩ := id hb
  obtain ⟨⟨B, L, hl⟩, -⟩ := hM.live hA hn hS
  obtain ⟨r, r1, r2, r3⟩ := hl.rk4 hA dt
  obtain ⟨s, s1, s2, s3⟩ := mul_num_in hA r2 dt
  obtain ⟨r', g, h⟩ := bind_ok h
  cases r1.symm.trans g
  obtain ⟨s', g, h⟩ := bind_ok h
  cases s1.symm.trans (lift_ok g)
  obtain ⟨m, hm, h⟩ := bind_ok h
  obtain ⟨m1, -, m2, -⟩ := C94_add hA hn h2 hr hf hl.motorWf hl.motorEven s2 (fun a ha => ((hl.spaceB.2 a).1 (r3 ▸ s3 ▸ ha)).2) hu hm
  exact moved_copy m1 (by rintro x ⟨⟩; exact r2) m2 h

theorem relStep_wf (hA : WfAlg A) (h5 : A.n < 6) (hn : 2 ≤ A.n) (h2 : (2 : R) ≠ 0) {fuel : Nat} (hf : 4 ≤ fuel) {x y z : MV R} (hx : WfMV A x) (hy : WfMV A y)
    (h : motorRelativeStep A fuel x y = .ok z) : WfMV A z := by
  obtain ⟨m, h0, h⟩ := bind_ok h
  have h0 := lift_ok h0
  obtain ⟨l, h1, h⟩ := bind_ok h
  obtain ⟨m', m1, m2, m3⟩ : Gives A (y.reverseProduct A x) (val A y * CliffordAlgebra.reverse (val A x)) := bin_gives (reverseProduct_bin hA) hy hx
  cases m1.symm.trans h0
  obtain ⟨-, h1⟩ := require_ok h1
  obtain ⟨S, S1, S2⟩ := (C14_named hA).2.2.2.2.2.2.2.2.2.2.2.2.2.2.1
  obtain ⟨T, t1, p, p1, p2, p3, p4⟩ := restrictSubspace_gives hA m2 S2.1
  have e : m.logLinearNormalized A fuel = (do let d ← p.inverse A fuel; lift (m.bivectorProduct A d)) := by
    simp only [MV.logLinearNormalized, S1, p1, lift_some, bind, Except.bind]
  rw [e] at h1
  obtain ⟨d, h1, h3⟩ := bind_ok h1
  rcases C47_inverse hA h5 h2 hf p3 with ⟨d', d1, d2, d3, d4⟩ | hd
  swap
  · rw [hd] at h1; cases h1
  cases d1.symm.trans h1
  obtain ⟨w, w1, w2, w3⟩ := mul_num_in hA ((C30_graded hA m2 d2).2.2.2.2.2 hn |>.val (lift_ok h3)).1 (-2 : R)
  cases w1.symm.trans (lift_ok h)
  exact w2

theorem post_moved (hA : WfAlg A) (h5 : A.n < 6) (hn : 2 ≤ A.n) (h2 : (2 : R) ≠ 0) {rt : Roots R} (hr : RootLaw rt) {fuel : Nat} (hf : 4 ≤ fuel) {b old c : Body R}
    (hb : Moving A b) (ho : Moving A old) {dt : R} (hdt : dt ≠ 0) (h : b.postIntegrate A rt fuel old dt = .ok c) : Moved A b c := by
  obtain ⟨⟨S, rows, hS, hM⟩, hu⟩ := id hb
  obtain ⟨⟨B, L, hl⟩, -⟩ := hM.live hA hn hS
  obtain ⟨⟨S', rows', hS', hM'⟩, hu'⟩ := id ho
  obtain ⟨⟨B', L', hl'⟩, -⟩ := hM'.live hA hn hS'
  obtain ⟨n, hn', h⟩ := bind_ok h
  obtain ⟨n1, k, t, -, k1, k2⟩ := normalized_unit hA h2 hr (by omega) hl.motorWf hu hn'
  obtain ⟨x, x1, x2, x3, x4⟩ := reverse_in hA n1
  obtain ⟨y, y1, y2, y3, y4⟩ := reverse_in hA hl'.motorWf
  obtain ⟨x', g, h⟩ := bind_ok h
  cases x1.symm.trans (lift_ok g)
  obtain ⟨y', g, h⟩ := bind_ok h
  cases y1.symm.trans (lift_ok g)
  obtain ⟨w, w1, h⟩ := bind_ok h
  have w2 := relStep_wf hA h5 hn h2 hf x3 y3 w1
  obtain ⟨z, z1, z2, -⟩ := div_num hA fuel w2 hdt
  obtain ⟨z', g, h⟩ := bind_ok h
  cases z1.symm.trans g
  refine moved_copy n1 (by rintro x ⟨⟩; exact z2) ?_ h
  rw [k2, map_smul, smul_mul_smul_comm, k1, hu, one_smul]

/-- What the constructor of a constraint asserts, and well-formed arrays. -/
def Proper (A : Alg) (c : Constraint R) : Prop :=
  c.init A = .ok c ∧ WfMV A c.anchor0 ∧ WfMV A c.anchor1 ∧ WfMV A c.compliance

/-- The position step of a constraint keeps unit motors. -/
def StepsWell (A : Alg) (rt : Roots R) (fuel : Nat) (tiny dt : R) : Prop :=
  ∀ (c : Constraint R) (b0 b1 : Body R) n0 n1, Proper A c → Moving A b0 → Moving A b1 →
    c.applyIndexed A rt fuel tiny b0.motor b1.motor b0.inertiaInv b1.inertiaInv dt = .ok (n0, n1) →
    (WfMV A n0 ∧ n0.sub = b0.motor.sub ∧ val A n0 * CliffordAlgebra.reverse (val A n0) = 1) ∧
    (WfMV A n1 ∧ n1.sub = b1.motor.sub ∧ val A n1 * CliffordAlgebra.reverse (val A n1) = 1)

theorem apply_moved (hA : WfAlg A) (hn : 2 ≤ A.n) {rt : Roots R} {fuel : Nat} {tiny dt : R} (hs : StepsWell A rt fuel tiny dt) {links : List (Link R)}
    (hl : ∀ l ∈ links, Proper A l.constraint) {bs r : List (Body R)} (hb : ∀ b ∈ bs, Moving A b) (h : Link.apply A rt fuel tiny links bs dt = .ok r) :
    List.Forall₂ (Moved A) bs r := by
  have h' : scatter (fun l (b0 b1 : Body R) => l.constraint.applyIndexed A rt fuel tiny b0.motor b1.motor b0.inertiaInv b1.inertiaInv dt)
    (fun b : Body R => b.motor.vals) (fun m : MV R => m.vals) (fun b v => do b.copy A (some (← lift (b.motor.copy v))) none none none) links bs = .ok r := h
  obtain ⟨h1, h2⟩ := scatter_any h'
  refine forall₂_getElem.2 ⟨h1.symm, fun k b c e1 e2 => ?_⟩
  have mb := hb b (List.mem_of_getElem? e1)
  have put : ∀ {n : MV R}, n.sub = b.motor.sub → WfMV A n → val A n * CliffordAlgebra.reverse (val A n) = 1 →
      (do b.copy A (some (← lift (b.motor.copy n.vals))) none none none) = .ok c → Moved A b c := by
    intro n n1 n2 n3 hc
    obtain ⟨x, g, hc⟩ := bind_ok hc
    obtain ⟨rfl, -⟩ := copy_vals (lift_ok g)
    rw [← n1] at hc
    exact moved_copy n2 (by simp) n3 hc
  rcases h2 k b c e1 e2 with hc | ⟨l, hl', b0, b1, n0, n1, m0, m1, hF, hc⟩
  · obtain ⟨⟨S, rows, hS, hM⟩, hu⟩ := id mb
    obtain ⟨⟨B, L, hb'⟩, -⟩ := hM.live hA hn hS
    exact put rfl hb'.motorWf hu hc
  · obtain ⟨⟨x1, x2, x3⟩, y1, y2, y3⟩ := hs _ _ _ _ _ (hl l hl') (hb b0 m0) (hb b1 m1) hF
    rcases hc with ⟨rfl, hc⟩ | ⟨rfl, hc⟩
    · exact put x2 x1 x3 hc
    · exact put y2 y1 y3 hc

theorem vApply_moved (hA : WfAlg A) (hn : 2 ≤ A.n) {rt : Roots R} {fuel : Nat} {tiny : R} {links : List (Link R)} {bs r : List (Body R)}
    (hb : ∀ b ∈ bs, Moving A b) (h : Link.vApply A rt fuel tiny links bs = .ok r) : List.Forall₂ (Moved A) bs r := by
  have h' : scatter (fun l (b0 b1 : Body R) => l.constraint.vApplyIndexed A rt fuel tiny b0.motor b1.motor b0.rate b1.rate b0.inertiaInv b1.inertiaInv)
    (fun b : Body R => b.rate.vals) (fun m : MV R => m.vals) (fun b v => do b.copy A none (some (← lift (b.rate.copy v))) none none) links bs = .ok r := h
  obtain ⟨h1, h2⟩ := scatter_any h'
  refine forall₂_getElem.2 ⟨h1.symm, fun k b c e1 e2 => ?_⟩
  have mb := hb b (List.mem_of_getElem? e1)
  have put : ∀ {v : List R}, (do b.copy A none (some (← lift (b.rate.copy v))) none none) = .ok c → Moved A b c := by
    intro v hc
    obtain ⟨x, g, hc⟩ := bind_ok hc
    obtain ⟨rfl, hl⟩ := copy_vals (lift_ok g)
    refine ⟨fun S rows hS hM => .copy hM (by simp) ?_ (by simp) (by simp) hc, ?_⟩
    · rintro x ⟨⟩
      exact ⟨(mb.rate hA hn).1.1, hl⟩
    · rw [(copy_ok hc).1]
      exact mb.2
  rcases h2 k b c e1 e2 with hc | ⟨l, hl', b0, b1, n0, n1, m0, m1, hF, ⟨rfl, hc⟩ | ⟨rfl, hc⟩⟩
  · exact put hc
  · exact put hc
  · exact put hc

theorem fold_moved {f : List (Body R) → List (Link R) → Except Fail (List (Body R))} {sets : List (List (Link R))}
    (hf : ∀ c ∈ sets, ∀ bs r, (∀ b ∈ bs, Moving A b) → f bs c = .ok r → List.Forall₂ (Moved A) bs r) {bs r : List (Body R)} (hb : ∀ b ∈ bs, Moving A b)
    (h : sets.foldlM f bs = .ok r) : List.Forall₂ (Moved A) bs r := by
  induction sets generalizing bs with
  | nil =>
    cases h
    exact List.forall₂_same.2 fun b hbm => ⟨fun _ _ _ h => h, (hb b hbm).2⟩
  | cons c sets ih =>
    rw [List.foldlM_cons] at h
    obtain ⟨m, h1, h⟩ := bind_ok h
    have := hf c (by simp) _ _ hb h1
    exact moved_trans this (ih (fun c hc => hf c (by simp [hc])) (moving_all this hb) h)

theorem integrate_moved (hA : WfAlg A) (h5 : A.n < 6) (hn : 2 ≤ A.n) (h2 : (2 : R) ≠ 0) {rt : Roots R} (hr : RootLaw rt) {fuel : Nat} (hf : 4 ≤ fuel) {tiny dt : R}
    (hdt : dt ≠ 0) (hs : StepsWell A rt fuel tiny dt) {sets : List (List (Link R))} (hl : ∀ c ∈ sets, ∀ l ∈ c, Proper A l.constraint) {bs r : List (Body R)}
    (hb : ∀ b ∈ bs, Moving A b) (h : Link.integrate A rt fuel tiny sets bs dt = .ok r) : List.Forall₂ (Moved A) bs r := by
  obtain ⟨b1, g, h⟩ := bind_ok h
  have m1 : List.Forall₂ (Moved A) bs b1 := by
    obtain ⟨l1, g⟩ := forall₂_getElem.1 (mapM_iff.1 g)
    exact forall₂_getElem.2 ⟨l1, fun k b c e1 e2 => pre_moved hA hn h2 hr (by omega) (hb b (List.mem_of_getElem? e1)) (g k b c e1 e2)⟩
  obtain ⟨b2, g, h⟩ := bind_ok h
  have m2 := fold_moved (fun c hc bs r hb h => apply_moved hA hn hs (hl c hc) hb h) (moving_all m1 hb) g
  have hb2 := moving_all m2 (moving_all m1 hb)
  obtain ⟨b3, g, h⟩ := bind_ok h
  have m3 : List.Forall₂ (Moved A) b2 b3 := by
    obtain ⟨l1, g⟩ := forall₂_getElem.1 (mapM_iff.1 g)
    rw [List.length_zip, ← m1.length_eq.trans m2.length_eq, min_self, m1.length_eq.trans m2.length_eq] at l1
    refine forall₂_getElem.2 ⟨l1, fun k b c e1 e2 => ?_⟩
    have hk := (List.getElem?_eq_some_iff.1 e1).1
    have eo : bs[k]? = some (bs[k]'(by rw [m1.length_eq.trans m2.length_eq]; exact hk)) := List.getElem?_eq_getElem _
    have := g k (b, _) c (by rw [List.getElem?_zip_eq_some]; exact ⟨e1, eo⟩) e2
    exact post_moved hA h5 hn h2 hr hf (hb2 b (List.mem_of_getElem? e1)) (hb _ (List.mem_of_getElem? eo)) hdt this
  have m4 := fold_moved (fun c hc bs r hb h => vApply_moved hA hn hb h) (moving_all m3 hb2) h
  exact moved_trans (moved_trans m1 m2) (moved_trans m3 m4)

theorem putRate_total {b : Body R} (hb : Sound A b) {v : List R} (hv : v.length = b.rate.vals.length) :
    ∃ c, (do b.copy A none (some (← lift (b.rate.copy v))) none none) = .ok c := by
  have hc : b.rate.copy v = some ⟨b.rate.sub, v⟩ := by
    unfold MV.copy MV.construct
    rw [if_pos (by simpa using hv.trans hb.2.2)]
  rw [hc]
  have hs := hb.1
  refine ⟨{ b with rate := ⟨b.rate.sub, v⟩ }, ?_⟩
  show Body.init A { b with rate := ⟨b.rate.sub, v⟩ } = _
  unfold Body.init at hs ⊢
  split_ifs at hs with ha
  rw [if_pos]
  exact ha

/-- C99: in the plane `v_apply` of any constraints has a result if and only if every constraint names two bodies and the velocity step
between them has a result; whether two constraints share a body is not looked at. -/
theorem C99_total (hA : WfAlg A) (h3 : A.n = 3) (h2 : (2 : R) ≠ 0) (h0 : ∃ j < A.n, A.desc.sig.getD j 0 ≠ 0) {rt : Roots R} (hr : RootLaw rt) {fuel : Nat}
    {tiny : R} {links : List (Link R)} {bs : List (Body R)} (hb : ∀ b ∈ bs, Moving A b) (hl : ∀ l ∈ links, Proper A l.constraint) :
    (∃ r, Link.vApply A rt (fuel + 1) tiny links bs = .ok r) ↔
      ∀ l ∈ links, ∃ b0 b1 n, pyGet bs l.idx0 = some b0 ∧ pyGet bs l.idx1 = some b1 ∧
        l.constraint.vApplyIndexed A rt (fuel + 1) tiny b0.motor b1.motor b0.rate b1.rate b0.inertiaInv b1.inertiaInv = .ok n := by
  have hn : 2 ≤ A.n := by omega
  have := scatter_total (F := fun l (b0 b1 : Body R) => l.constraint.vApplyIndexed A rt (fuel + 1) tiny b0.motor b1.motor b0.rate b1.rate b0.inertiaInv b1.inertiaInv)
    (get := fun b : Body R => b.rate.vals) (vals := fun m : MV R => m.vals) (put := fun b v => do b.copy A none (some (← lift (b.rate.copy v))) none none)
    (links := links) (bs := bs) (fun b h v hv => putRate_total ((hb b h).sound hA hn) hv) ?_
  · exact this
  · intro l hl' b0 hb0 b1 hb1 n0 n1 hF
    obtain ⟨⟨S0, rows0, hS0, hM0⟩, u0⟩ := hb b0 hb0
    obtain ⟨⟨S1, rows1, hS1, hM1⟩, u1⟩ := hb b1 hb1
    obtain ⟨l1, l2, l3, l4⟩ := hl l hl'
    obtain ⟨w0, w1, s0, s1, -⟩ := C97_velocity hA h3 h2 h0 hr hS0 hS1 hM0 hM1 u0 u1 l1 l2 l3 l4 hF
    obtain ⟨v0, t0⟩ := (hb b0 hb0).rate hA hn
    obtain ⟨v1, t1⟩ := (hb b1 hb1).rate hA hn
    rw [w0.2, v0.2, w1.2, v1.2, Option.some.inj (s0.symm.trans t0), Option.some.inj (s1.symm.trans t1)]
    exact ⟨rfl, rfl⟩

/-- C99: without constraints `integrate` steps every body for itself. -/
theorem C99_free {rt : Roots R} {fuel : Nat} {tiny dt : R} {bs r : List (Body R)} :
    Link.integrate A rt fuel tiny [] bs dt = .ok r ↔ List.Forall₂ (fun b c => b.integrate A rt fuel dt = .ok c) bs r := by
  constructor
  · intro h
    obtain ⟨b1, g1, h⟩ := bind_ok h
    obtain ⟨b2, g2, h⟩ := bind_ok h
    cases g2
    obtain ⟨b3, g3, h⟩ := bind_ok h
    cases h
    obtain ⟨l1, g1⟩ := forall₂_getElem.1 (mapM_iff.1 g1)
    obtain ⟨l3, g3⟩ := forall₂_getElem.1 (mapM_iff.1 g3)
    rw [List.length_zip, ← l1, min_self] at l3
    refine forall₂_getElem.2 ⟨l3, fun k b c e1 e2 => ?_⟩
    have hk := (List.getElem?_eq_some_iff.1 e1).1
    have em : b1[k]? = some (b1[k]'(l1 ▸ hk)) := List.getElem?_eq_getElem _
    have x1 := g1 k _ _ e1 em
    have x3 := g3 k (_, b) c (by rw [List.getElem?_zip_eq_some]; exact ⟨em, e1⟩) e2
    unfold Body.integrate
    rw [x1]
    exact x3
  · intro h
    obtain ⟨l1, g⟩ := forall₂_getElem.1 h
    obtain ⟨b1, h1⟩ := mapM_exists (f := fun b : Body R => b.preIntegrate A rt fuel dt) (l := bs) fun b hb => by
      obtain ⟨k, hk, rfl⟩ := List.mem_iff_getElem.1 hb
      obtain ⟨c, x, -⟩ := bind_ok (g k _ _ (List.getElem?_eq_getElem hk) (List.getElem?_eq_getElem (l1 ▸ hk)))
      exact ⟨c, x⟩
    obtain ⟨l2, g1⟩ := forall₂_getElem.1 (mapM_iff.1 h1)
    have h3 : (List.zip b1 bs).mapM (fun x : Body R × Body R => x.1.postIntegrate A rt fuel x.2 dt) = .ok r := by
      refine mapM_iff.2 (forall₂_getElem.2 ⟨by rw [List.length_zip, ← l2, min_self, l1], fun k x c e1 e2 => ?_⟩)
      rw [List.getElem?_zip_eq_some] at e1
      obtain ⟨c', y1, y2⟩ := bind_ok (g k _ _ e1.2 e2)
      cases (g1 k _ _ e1.2 e1.1).symm.trans y1
      exact y2
    unfold Link.integrate
    rw [h1]
    simp only [List.foldlM_nil, pure, Except.pure, bind, Except.bind, h3]

theorem steps_sub (hA : WfAlg A) (h5 : A.n < 6) (hn : 2 ≤ A.n) (h2 : (2 : R) ≠ 0) {rt : Roots R} (hr : RootLaw rt) {fuel : Nat} (hf : 2 ≤ fuel) {b : Body R}
    (hb : Moving A b) {s n : MV R} (w : WfMV A s) (hs : A.bivector = some s.sub) (h : motorAddStep A rt fuel b.motor s = .ok n) : n.sub = b.motor.sub := by
  obtain ⟨⟨S, rows, hS, hM⟩, hu⟩ := id hb
  obtain ⟨⟨B, L, hl⟩, -⟩ := hM.live hA hn hS
  have hsB : s.sub = B := Option.some.inj (hs.symm.trans hl.bivector)
  obtain ⟨m1, m2, -⟩ := C94_add hA hn h2 hr hf hl.motorWf hl.motorEven w (fun a ha => ((hl.spaceB.2 a).1 (hsB ▸ ha)).2) hu h
  exact even_full hl.motorSub m1.sub m2 (addStep_keeps hA h5 hn h2 hr hf hl.motorWf w h)

/-- C99: in the plane a step of `integrate` with any sets of constraints keeps the bodies bodies of the same points with motors of unit norm. -/
theorem C99_integrate_plane (hA : WfAlg A) (h3 : A.n = 3) (h2 : (2 : R) ≠ 0) (h0 : ∃ j < A.n, A.desc.sig.getD j 0 ≠ 0) {rt : Roots R} (hr : RootLaw rt) {fuel : Nat}
    (hf : 4 ≤ fuel) {tiny dt : R} (hdt : dt ≠ 0) {sets : List (List (Link R))} (hl : ∀ c ∈ sets, ∀ l ∈ c, Proper A l.constraint) {bs r : List (Body R)}
    (hb : ∀ b ∈ bs, Moving A b) (h : Link.integrate A rt fuel tiny sets bs dt = .ok r) : List.Forall₂ (Moved A) bs r := by
  refine integrate_moved hA (by omega) (by omega) h2 hr hf hdt ?_ hl hb h
  intro c b0 b1 n0 n1 hc m0 m1 hF
  obtain ⟨fuel, rfl⟩ : ∃ f, fuel = f + 2 := ⟨fuel - 2, by omega⟩
  obtain ⟨⟨S0, rows0, hS0, hM0⟩, u0⟩ := id m0
  obtain ⟨⟨S1, rows1, hS1, hM1⟩, u1⟩ := id m1
  obtain ⟨w0, w1, x0, x1, s0, s1, q, v0, v1, t0, t1, y0, y1, -⟩ := C97_position hA h3 h2 h0 hr hS0 hS1 hM0 hM1 u0 u1 hc.1 hc.2.1 hc.2.2.1 hc.2.2.2 hdt hF
  exact ⟨⟨w0, steps_sub hA (by omega) (by omega) h2 hr (by omega) m0 v0 t0 y0, x0⟩, w1, steps_sub hA (by omega) (by omega) h2 hr (by omega) m1 v1 t1 y1, x1⟩

/-- C99: the same in space. -/
theorem C99_integrate_space (hA : WfAlg A) (h4 : A.n = 4) (h2 : (2 : R) ≠ 0)
    (h0 : ∃ i j, i < j ∧ j < A.n ∧ A.desc.sig.getD i 0 ≠ 0 ∧ A.desc.sig.getD j 0 ≠ 0) {rt : Roots R} (hr : RootLaw rt) {fuel : Nat}
    (hf : 4 ≤ fuel) {tiny dt : R} (hdt : dt ≠ 0) {sets : List (List (Link R))} (hl : ∀ c ∈ sets, ∀ l ∈ c, Proper A l.constraint) {bs r : List (Body R)}
    (hb : ∀ b ∈ bs, Moving A b) (h : Link.integrate A rt fuel tiny sets bs dt = .ok r) : List.Forall₂ (Moved A) bs r := by
  refine integrate_moved hA (by omega) (by omega) h2 hr hf hdt ?_ hl hb h
  intro c b0 b1 n0 n1 hc m0 m1 hF
  obtain ⟨fuel, rfl⟩ : ∃ f, fuel = f + 2 := ⟨fuel - 2, by omega⟩
  obtain ⟨⟨S0, rows0, hS0, hM0⟩, u0⟩ := id m0
  obtain ⟨⟨S1, rows1, hS1, hM1⟩, u1⟩ := id m1
  obtain ⟨w0, w1, x0, x1, s0, s1, q, v0, v1, t0, t1, y0, y1, -⟩ := C98_position hA h4 h2 h0 hr hS0 hS1 hM0 hM1 u0 u1 hc.1 hc.2.1 hc.2.2.1 hc.2.2.2 hdt hF
  exact ⟨⟨w0, steps_sub hA (by omega) (by omega) h2 hr (by omega) m0 v0 t0 y0, x0⟩, w1, steps_sub hA (by omega) (by omega) h2 hr (by omega) m1 v1 t1 y1, x1⟩

end

/-! ### chains -/

theorem everySecond_getElem {α : Type} (l : List α) (k : Nat) : (everySecond l)[k]? = l[2 * k]? := by
  induction l using everySecond.induct generalizing k with
  | case1 => simp [everySecond]
  | case2 x =>
    cases k with
    | zero => rfl
    | succ k => rw [everySecond, List.getElem?_eq_none (by simp), List.getElem?_eq_none (by simp; omega)]
  | case3 x y l ih =>
    cases k with
    | zero => rfl
    | succ k =>
      rw [everySecond, List.getElem?_cons_succ, ih, show 2 * (k + 1) = 2 * k + 1 + 1 by ring, List.getElem?_cons_succ, List.getElem?_cons_succ]

theorem chain_link {n : Nat} {cs : List (Constraint R)} {t : Nat} {l : Link R}
    (h : (List.zipWith (fun (i : Int × Int) c => (⟨i.1, i.2, c⟩ : Link R)) (chainIdx n) cs)[t]? = some l) :
    t + 1 < n ∧ l.idx0 = t ∧ l.idx1 = t + 1 := by
  rw [List.getElem?_zipWith] at h
  cases e1 : (chainIdx n)[t]? with
  | none => rw [e1] at h; cases cs[t]? <;> cases h
  | some i =>
    cases e2 : cs[t]? with
    | none => rw [e1, e2] at h; cases h
    | some c =>
      rw [e1, e2] at h
      cases h
      unfold chainIdx at e1
      rw [List.getElem?_map] at e1
      cases e3 : (List.range (n - 1))[t]? with
      | none => rw [e3] at e1; cases e1
      | some u =>
        rw [e3] at e1
        cases e1
        obtain ⟨h1, h2⟩ := List.getElem?_eq_some_iff.1 e3
        simp only [List.length_range] at h1
        simp only [List.getElem_range] at h2
        subst h2
        exact ⟨by omega, rfl, rfl⟩

theorem apart_of {n : Nat} {links : List (Link R)} (f : Nat → Nat) (hf : ∀ k k', k < k' → f k + 2 ≤ f k')
    (h : ∀ (k : Nat) (l : Link R), links[k]? = some l → f k + 1 < n ∧ l.idx0 = (f k : Int) ∧ l.idx1 = (f k : Int) + 1) : Apart n links := by
  have hp : ∀ t : Nat, t < n → pyIndex n (t : Int) = some t := by
    intro t ht
    unfold pyIndex
    simp [ht]
  have inj : ∀ {k k'}, f k = f k' → k = k' := by
    intro k k' e
    rcases lt_trichotomy k k' with h | h | h
    · have := hf _ _ h; omega
    · exact h
    · have := hf _ _ h; omega
  have e : ∀ (k : Nat) (hk : k < links.length), pyIndex n links[k].idx0 = some (f k) ∧ pyIndex n links[k].idx1 = some (f k + 1) := by
    intro k hk
    obtain ⟨h1, h2, h3⟩ := h k _ (List.getElem?_eq_getElem hk)
    rw [h2, h3]
    exact ⟨hp _ (by omega), by exact_mod_cast hp (f k + 1) (by omega)⟩
  unfold Apart Link.bodyIdx
  rw [List.map_append, List.map_map, List.map_map, List.nodup_append]
  refine ⟨?_, ?_, ?_⟩
  · rw [List.nodup_iff_injective_getElem]
    rintro ⟨a, ha⟩ ⟨b, hb⟩ hab
    simp only [List.length_map] at ha hb
    simp only [List.getElem_map, Function.comp_apply, (e a ha).1, (e b hb).1, Option.some.injEq] at hab
    exact Fin.ext (inj hab)
  · rw [List.nodup_iff_injective_getElem]
    rintro ⟨a, ha⟩ ⟨b, hb⟩ hab
    simp only [List.length_map] at ha hb
    simp only [List.getElem_map, Function.comp_apply, (e a ha).2, (e b hb).2, Option.some.injEq] at hab
    exact Fin.ext (inj (Nat.succ_injective hab))
  · intro x hx y hy
    obtain ⟨a, ha, rfl⟩ := List.mem_iff_getElem.1 hx
    obtain ⟨b, hb, rfl⟩ := List.mem_iff_getElem.1 hy
    simp only [List.length_map] at ha hb
    simp only [List.getElem_map, Function.comp_apply, (e a ha).1, (e b hb).2, ne_eq, Option.some.injEq]
    rcases lt_trichotomy a b with h | h | h
    · have := hf _ _ h; omega
    · subst h; omega
    · have := hf _ _ h; omega

/-- C99: the two sets into which the constraints of a chain are split have no body twice, every constraint of the chain is in one of them, and
constraint `i` connects the bodies `i` and `i + 1`. -/
theorem C99_chain (n : Nat) (cs : List (Constraint R)) (hc : cs.length + 1 = n) :
    Apart n (chainSets n cs).1 ∧ Apart n (chainSets n cs).2 ∧
    ∀ (i : Nat) c, cs[i]? = some c → ∃ l : Link R, l.idx0 = i ∧ l.idx1 = i + 1 ∧ l.constraint = c ∧
      (if i % 2 = 0 then (chainSets n cs).1[i / 2]? else (chainSets n cs).2[i / 2]?) = some l := by
  refine ⟨?_, ?_, ?_⟩
  · refine apart_of (fun k => 2 * k) (fun k k' h => by omega) fun k l h => ?_
    simp only [chainSets, everySecond_getElem] at h
    have := chain_link h
    exact_mod_cast this
  · refine apart_of (fun k => 2 * k + 1) (fun k k' h => by omega) fun k l h => ?_
    simp only [chainSets, everySecond_getElem, List.getElem?_drop] at h
    have := chain_link h
    rw [show 1 + 2 * k = 2 * k + 1 by ring] at this
    exact_mod_cast this
  · intro i c hi
    have hlt := (List.getElem?_eq_some_iff.1 hi).1
    have e : (List.zipWith (fun (i : Int × Int) c => (⟨i.1, i.2, c⟩ : Link R)) (chainIdx n) cs)[i]? = some ⟨i, i + 1, c⟩ := by
      rw [List.getElem?_zipWith, hi]
      have : (chainIdx n)[i]? = some ((i : Int), (i : Int) + 1) := by
        unfold chainIdx
        rw [List.getElem?_map, List.getElem?_range (by omega)]
        rfl
      rw [this]
    refine ⟨⟨i, i + 1, c⟩, rfl, rfl, rfl, ?_⟩
    split_ifs with h
    · simp only [chainSets, everySecond_getElem]
      rw [show 2 * (i / 2) = i by omega]
      exact e
    · simp only [chainSets, everySecond_getElem, List.getElem?_drop]
      rw [show 1 + 2 * (i / 2) = i by omega]
      exact e

/-! ### examples -/

/-- Three bodies in a row, the one in the middle at rest, and a hinge that may be set between two of them. -/
theorem plane_set : ∃ (b0 b1 : Body ℝ) (c : Constraint ℝ), Moving pga2s b0 ∧ Moving pga2s b1 ∧ Proper pga2s c ∧
    (∃ r, c.vApplyIndexed pga2s (realRoots 1) 4 (1 / 10) b0.motor b1.motor b0.rate b1.rate b0.inertiaInv b1.inertiaInv = .ok r) ∧
    (∃ r, c.vApplyIndexed pga2s (realRoots 1) 4 (1 / 10) b1.motor b0.motor b1.rate b0.rate b1.inertiaInv b0.inertiaInv = .ok r) ∧
    (∃ r, c.applyIndexed pga2s (realRoots 1) 4 (1 / 10) b0.motor b1.motor b0.inertiaInv b1.inertiaInv (1 / 60) = .ok r) := by
  obtain ⟨b0, b1, c, h0, h1, u0, u1, hc, w0, w1, wc, e1, e2, -, e3⟩ := plane_hinge
  exact ⟨b0, b1, c, ⟨⟨_, _, wf_cloudSub, h0⟩, u0⟩, ⟨⟨_, _, wf_cloudSub, h1⟩, u1⟩, ⟨hc, w0, w1, wc⟩, e1, e2, e3⟩

/-- The hypotheses of `C99_vApply`, `C99_take`, `C99_order`, `C99_momentum_plane` and `C99_total` are met by a link between two bodies, the second of them named by a
negative index. -/
example : ∃ (bs r : List (Body ℝ)) (l : Link ℝ), l.idx0 = 0 ∧ l.idx1 = -2 ∧ bs.length = 3 ∧ (∀ b ∈ bs, Sound pga2s b) ∧ (∀ b ∈ bs, Moving pga2s b) ∧ Proper pga2s l.constraint ∧
    Apart bs.length [l] ∧ Link.vApply pga2s (realRoots 1) 4 (1 / 10) [l] bs = .ok r ∧ (∃ s, takeBodies pga2s bs [-1, 0] = .ok s) := by
  obtain ⟨b0, b1, c, m0, m1, hc, e1, -, -⟩ := plane_set
  have hb : ∀ b ∈ [b0, b1, b1], Moving pga2s b := by
    intro b h
    simp only [List.mem_cons, List.not_mem_nil, or_false] at h
    rcases h with rfl | rfl | rfl <;> assumption
  obtain ⟨r, hr⟩ := (C99_total wf_pga2s rfl two_ne_zero ⟨0, by decide, by decide⟩ (realRoots_law 1).law (fuel := 3) (tiny := 1 / 10) (links := [⟨0, -2, c⟩]) hb
    (by simpa using hc)).2 (by
      intro l hl
      cases List.mem_singleton.1 hl
      obtain ⟨n, hn⟩ := e1
      exact ⟨b0, b1, n, rfl, rfl, hn⟩)
  exact ⟨_, r, ⟨0, -2, c⟩, rfl, rfl, rfl, fun b h => (hb b h).sound wf_pga2s (by decide), hb, hc, show ([some 0, some 1] : List (Option Nat)).Nodup by decide, hr, [b1, b0],
    (C99_take fun b h => (hb b h).sound wf_pga2s (by decide)).2 (.cons ⟨2, rfl, rfl⟩ (.cons ⟨0, rfl, rfl⟩ .nil))⟩

/-- The hypotheses of `C99_shared` and `C99_lost` are met: three bodies in a row and two hinges, the body in the middle at rest; `Link.unique` says that the
indices are not unique, and a result there is. -/
example : ∃ (bs r : List (Body ℝ)) (l l' : Link ℝ), bs.length = 3 ∧ l.idx0 = 0 ∧ l.idx1 = 1 ∧ l'.idx0 = 1 ∧ l'.idx1 = 2 ∧ (∀ b ∈ bs, Moving pga2s b) ∧
    Proper pga2s l.constraint ∧ Proper pga2s l'.constraint ∧ Link.unique [l, l'] = false ∧ Link.vApply pga2s (realRoots 1) 4 (1 / 10) [l, l'] bs = .ok r := by
  obtain ⟨b0, b1, c, m0, m1, hc, e1, e2, -⟩ := plane_set
  have hb : ∀ b ∈ [b0, b1, b0], Moving pga2s b := by
    intro b h
    simp only [List.mem_cons, List.not_mem_nil, or_false] at h
    rcases h with rfl | rfl | rfl <;> assumption
  obtain ⟨r, hr⟩ := (C99_total wf_pga2s rfl two_ne_zero ⟨0, by decide, by decide⟩ (realRoots_law 1).law (fuel := 3) (tiny := 1 / 10)
    (links := [⟨0, 1, c⟩, ⟨1, 2, c⟩]) hb (by simpa using hc)).2 (by
      intro l hl
      simp only [List.mem_cons, List.not_mem_nil, or_false] at hl
      rcases hl with rfl | rfl
      · obtain ⟨n, hn⟩ := e1
        exact ⟨b0, b1, n, rfl, rfl, hn⟩
      · obtain ⟨n, hn⟩ := e2
        exact ⟨b1, b0, n, rfl, rfl, hn⟩)
  exact ⟨_, r, _, _, rfl, rfl, rfl, rfl, rfl, hb, hc, hc, rfl, hr⟩

/-- Negative indices: `Link.unique` says that these links have no body twice, but with three bodies they have. -/
example (c : Constraint ℝ) : Link.unique [⟨0, 1, c⟩, ⟨-2, 2, c⟩] = true ∧ ¬ Apart 3 [⟨0, 1, c⟩, ⟨-2, 2, c⟩] :=
  ⟨rfl, show ¬ ([some 0, some 1, some 1, some 2] : List (Option Nat)).Nodup by decide⟩

/-- The hypotheses of `C99_momentum_space` are met. -/
example : ∃ (bs r : List (Body ℝ)) (l : Link ℝ), bs.length = 2 ∧ (∀ b ∈ bs, Moving pga3d b) ∧ Proper pga3d l.constraint ∧ Apart bs.length [l] ∧
    (∀ b0 b1, pyGet bs l.idx0 = some b0 → pyGet bs l.idx1 = some b1 →
      ∃ p, Gives pga3d (b0.motor.sandwich pga3d l.constraint.anchor0) p ∧ Gives pga3d (b1.motor.sandwich pga3d l.constraint.anchor1) p) ∧
    Link.vApply pga3d (realRoots 1) 4 (1 / 10) [l] bs = .ok r := by
  obtain ⟨b0, b1, c, h0, h1, u0, u1, hc, w0, w1, wc, ⟨p, p0, p1⟩, ⟨n, hn⟩, -⟩ := space_hinge
  have m0 : Moving pga3d b0 := ⟨⟨_, _, wf_spaceSub, h0⟩, u0⟩
  have m1 : Moving pga3d b1 := ⟨⟨_, _, wf_spaceSub, h1⟩, u1⟩
  have hb : ∀ b ∈ [b0, b1], Moving pga3d b := by
    intro b h
    simp only [List.mem_cons, List.not_mem_nil, or_false] at h
    rcases h with rfl | rfl <;> assumption
  obtain ⟨v0, v1, s0, s1, -⟩ := C98_velocity wf_pga3d rfl two_ne_zero ⟨0, 1, by decide, by decide, by decide, by decide⟩ (realRoots_law 1).law (fuel := 2) wf_spaceSub wf_spaceSub h0 h1 u0 u1 hc w0 w1 wc
    p0 p1 hn
  have put : ∀ {b : Body ℝ} {v : MV ℝ}, Moving pga3d b → WfMV pga3d v → pga3d.bivector = some v.sub → ∃ c, putRate pga3d b v = .ok c := fun hm hv hs =>
    putRate_total (hm.sound wf_pga3d (by decide)) (by
      obtain ⟨x, y⟩ := hm.rate wf_pga3d (by decide)
      rw [hv.2, x.2, Option.some.inj (hs.symm.trans y)])
  obtain ⟨c0, hc0⟩ := put m0 v0 s0
  obtain ⟨c1, hc1⟩ := put m1 v1 s1
  have hap : Apart 2 [(⟨0, 1, c⟩ : Link ℝ)] := show ([some 0, some 1] : List (Option Nat)).Nodup by decide
  refine ⟨[b0, b1], [c0, c1], ⟨0, 1, c⟩, rfl, hb, ⟨hc, w0, w1, wc⟩, hap, ?_, ?_⟩
  · rintro _ _ ⟨⟩ ⟨⟩
    exact ⟨p, p0, p1⟩
  · rw [C99_vApply (fun b h => (hb b h).sound wf_pga3d (by decide)) hap]
    refine ⟨rfl, ?_, ?_⟩
    · intro l hl
      cases List.mem_singleton.1 hl
      exact ⟨0, 1, b0, b1, n.1, n.2, c0, c1, rfl, rfl, rfl, rfl, hn, hc0, hc1, rfl, rfl⟩
    · intro k hk
      match k with
      | 0 => exact absurd rfl (hk _ (List.mem_singleton.2 rfl)).1
      | 1 => exact absurd rfl (hk _ (List.mem_singleton.2 rfl)).2
      | k + 2 => rfl

/-- The hypotheses of `C99_integrate_plane` and of `C99_free` are met by two bodies, one of them moving. -/
example : ∃ (bs r : List (Body ℝ)), bs.length = 2 ∧ (∀ b ∈ bs, Moving pga2s b) ∧ Link.integrate pga2s (realRoots 1) 4 (1 / 10) [] bs (1 / 60) = .ok r := by
  obtain ⟨b0, b1, c, m0, m1, -⟩ := plane_set
  have step : ∀ {b : Body ℝ}, Moving pga2s b → ∃ c, b.integrate pga2s (realRoots 1) 4 (1 / 60) = .ok c := by
    rintro b ⟨⟨S, rows, hS, hM⟩, hu⟩
    obtain ⟨_, _, _, -, -, -, e⟩ := C94_total wf_pga2s (by decide) (by decide) (by decide) ⟨0, by decide, by decide⟩ (realRoots_law 1) (le_refl 4) hS hM hu
      (dt := 1 / 60) (by norm_num)
    exact ⟨_, e⟩
  obtain ⟨c0, h0⟩ := step m0
  obtain ⟨c1, h1⟩ := step m1
  refine ⟨[b0, b1], [c0, c1], rfl, ?_, C99_free.2 (.cons h0 (.cons h1 .nil))⟩
  intro b h
  simp only [List.mem_cons, List.not_mem_nil, or_false] at h
  rcases h with rfl | rfl <;> assumption

/-- A chain of four bodies. -/
example (c : Constraint ℝ) : (chainSets 4 [c, c, c]).1.map (fun l => (l.idx0, l.idx1)) = [(0, 1), (2, 3)] ∧
    (chainSets 4 [c, c, c]).2.map (fun l => (l.idx0, l.idx1)) = [(1, 2)] := ⟨rfl, rfl⟩

end Verif.Props
