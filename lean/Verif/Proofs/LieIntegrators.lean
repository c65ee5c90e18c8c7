import Verif.Model.LieIntegrators
import Verif.Proofs.Physics9
import Verif.Props.LogExp
/-! # Lie group integrators -/
namespace Verif
open Model Spec Model.Factory Props

variable {A : Alg} {R : Type} [Field R] [DecidableEq R]

/-- A call that has a result on the subspace, with the value. -/
def OkIn (A : Alg) (r : Except Fail (MV R)) (S : SubSpace) (v : Cl A R) : Prop := ∃ z, r = .ok z ∧ z.sub = S ∧ WfMV A z ∧ val A z = v

/-- Reciprocals of Cayley transforms. -/
theorem cayley_mul {c m m' : Cl A R} (hu : IsUnit ((1 + c) * (1 - c))) (h1 : m * ((1 + c) * (1 - c)) = (1 + c) * (1 + c))
    (h2 : m' * ((1 - c) * (1 + c)) = (1 - c) * (1 - c)) : m' * m = 1 := by
  have e : (1 - c) * (1 + c) = (1 + c) * (1 - c) := by noncomm_ring
  rw [e] at h2
  refine hu.mul_right_cancel (hu.mul_right_cancel ?_)
  rw [mul_assoc m', h1]
  have e2 : (1 + c) * (1 + c) * ((1 + c) * (1 - c)) = (1 + c) * (1 - c) * ((1 + c) * (1 + c)) := by noncomm_ring
  rw [mul_assoc m', e2, ← mul_assoc, h2]
  noncomm_ring

theorem exp2_spec (hA : WfAlg A) (h5 : A.n < 6) (h2 : (2 : R) ≠ 0) {fuel : Nat} (hf : 4 ≤ fuel) {b e : MV R} (hb : WfMV A b)
    (hh : Homogeneous 2 b) (h : Lie.exp2 A fuel b = .ok e) : WfMV A e ∧ EvenSub e.sub ∧ val A e * CliffordAlgebra.reverse (val A e) = 1 ∧
      ∀ b', WfMV A b' → Homogeneous 2 b' → val A b' = - val A b → ∃ e', Lie.exp2 A fuel b' = .ok e' ∧ WfMV A e' ∧ EvenSub e'.sub ∧ val A e' * val A e = 1 := by
  obtain ⟨c, hc⟩ : ∃ c : Cl A R, val A b = (2 : R) • c := ⟨(2 : R)⁻¹ • val A b, by rw [smul_smul, mul_inv_cancel₀ h2, one_smul]⟩
  have hrc : CliffordAlgebra.reverse c = -c := by
    have := bivector_rev hA hb hh
    rw [hc, map_smul, ← smul_neg] at this
    exact smul_right_injective _ h2 this
  rw [Lie.exp2] at h
  rcases expCayley_spec hA h5 h2 hf hb hh hc with ⟨k, k1, k2, k3, hu, k5⟩ | ⟨hd, _⟩
  swap
  · rw [hd] at h; cases h
  cases k1.symm.trans h
  refine ⟨k2, k3, ?_, fun b' hb' hh' hv => ?_⟩
  · have h' := congrArg CliffordAlgebra.reverse k5
    simp only [CliffordAlgebra.reverse.map_mul, map_add, map_sub, CliffordAlgebra.reverse.map_one, hrc] at h'
    have e1 : (1 - -c) * (1 + -c) = (1 + c) * (1 - c) := by noncomm_ring
    have e2 : (1 + -c) * (1 + -c) = (1 - c) * (1 - c) := by noncomm_ring
    rw [e1, e2] at h'
    generalize hU : (1 + c) * (1 - c) = U at *
    have hcu : U * ((1 + c) * (1 + c)) = (1 + c) * (1 + c) * U := by rw [← hU]; noncomm_ring
    have hcu' : U * ((1 - c) * (1 - c)) = (1 - c) * (1 - c) * U := by rw [← hU]; noncomm_ring
    have hsq : (1 + c) * (1 + c) * ((1 - c) * (1 - c)) = U * U := by rw [← hU]; noncomm_ring
    refine hu.mul_left_cancel (hu.mul_right_cancel ?_)
    have hk : U * val A e = val A e * U := by
      refine hu.mul_right_cancel ?_
      rw [mul_assoc, k5, hcu]
    have hk' : CliffordAlgebra.reverse (val A e) * U = U * CliffordAlgebra.reverse (val A e) := by
      refine hu.mul_left_cancel ?_
      rw [← mul_assoc, h', hcu']
    rw [← mul_assoc, hk, k5, mul_assoc, hk', h', hsq, mul_one]
  · have hc' : val A b' = (2 : R) • (-c) := by rw [hv, hc, smul_neg]
    have e1 : (1 + -c) * (1 - -c) = (1 + c) * (1 - c) := by noncomm_ring
    rcases expCayley_spec hA h5 h2 hf hb' hh' hc' with ⟨l, l1, l2, l3, -, l5⟩ | ⟨-, hn⟩
    swap
    · rw [e1] at hn; exact absurd hu hn
    refine ⟨l, l1, l2, l3, cayley_mul hu k5 ?_⟩
    rw [show (1 - c) * (1 + c) = (1 + -c) * (1 - -c) by noncomm_ring, l5]
    noncomm_ring

/-- The blades of a wedge. -/
theorem wedge_sub (hA : WfAlg A) {x y z : MV R} (hx : WfMV A x) (hy : WfMV A y) (h : x.wedge A y = some z) {b : Nat} (hb : b ∈ z.sub.blades) :
    ∃ a ∈ x.sub.blades, ∃ c ∈ y.sub.blades, popcount a + popcount c = popcount b := by
  obtain ⟨op, o1, -⟩ := wedge_bin hA (argSem_sub hx.sub) (argSem_sub hy.sub)
  rw [MV.wedge, o1] at h
  rw [call_sub h, bin_output hA (wedge_bin hA) hx.sub hy.sub o1 (makeProduct_squeezed hA hx.sub hy.sub o1)] at hb
  obtain ⟨a, ha, c, hc, hnz⟩ := hb
  refine ⟨a, ha, c, hc, ?_⟩
  have la := hx.sub.lt a ha
  have lc := hy.sub.lt c hc
  change coef A ℤ b (wedgeMap A ℤ (blade A ℤ a) (blade A ℤ c)) ≠ 0 at hnz
  rw [wedge_blade hA la lc] at hnz
  split at hnz
  swap
  · exact absurd (map_zero _) hnz
  rename_i hd
  have lb : a ^^^ c < 2 ^ A.n := xor_lt la lc
  rw [map_smul, coef_blade _ _ lb] at hnz
  split at hnz
  swap
  · exact absurd (smul_zero _) hnz
  rename_i hbe
  have e4 := pc_xor A.n a c
  rw [hd] at e4
  have z : pc A.n 0 = 0 := by simp [pc]
  rw [hbe, popcount_of_lt hA.le32 la, popcount_of_lt hA.le32 lc, popcount_of_lt hA.le32 lb]
  omega

/-- The external forque of the integrators: a function of the values, on blades of the momenta, that together with the commutator
has all of them. -/
structure Forces (A : Alg) (B L : SubSpace) (inertia : Operator R) (ext : MV R → MV R → Except Fail (MV R)) (F : Cl A R → Cl A R → Cl A R) : Prop where
  gives : ∀ m r : MV R, WfMV A m → EvenSub m.sub → WfMV A r → r.sub = B →
    ∃ z, ext m r = .ok z ∧ WfMV A z ∧ SubOf z.sub L ∧ val A z = F (val A m) (val A r) ∧
      ∀ p c, einsumCallMV inertia [r] = some p → p.commutator A r = some c → ∀ b ∈ L.blades, b ∈ z.sub.blades ∨ b ∈ c.sub.blades

section
variable (hA : WfAlg A) {B L : SubSpace} (hB : IsSpace A B fun b => popcount b = 2) (hL : IsSpace A L fun b => popcount b + 2 = A.n)
  {I J : Operator R} (hI : Unary A I B L) (hJ : Unary A J L B) {ext : MV R → MV R → Except Fail (MV R)} {F : Cl A R → Cl A R → Cl A R}
  (hF : Forces A B L I ext F)

/-- The torque on the rate. -/
noncomputable def torque (A : Alg) (B L : SubSpace) (I : Operator R) (F : Cl A R → Cl A R → Cl A R) (m r : Cl A R) : Cl A R :=
  F m r - comm A R (opMap A I B L r) r

/-- The energy term. -/
noncomputable def energyOf (A : Alg) (B L : SubSpace) (I : Operator R) (r : Cl A R) : Cl A R := wedgeMap A R (opMap A I B L r) r * r

include hA hB hL hI in
theorem forque_in (hF : Forces A B L I ext F) {m r : MV R} (hm : WfMV A m) (he : EvenSub m.sub) (hr : WfMV A r) (hs : r.sub = B) :
    OkIn A (Lie.forque A I ext m r) L (torque A B L I F (val A m) (val A r)) := by
  obtain ⟨z, z1, z2, z3, z4, z5⟩ := hF.gives m r hm he hr hs
  obtain ⟨p, p1, p2, p3, p4⟩ := hI.call hr hs
  obtain ⟨c, c1, c2, c3⟩ := commutator_gives hA p3 hr
  obtain ⟨U, u1, -, ⟨w, w1, w2, w3, w4⟩, -⟩ := C44_sum hA z2 c2
  obtain ⟨U', u1', u4⟩ := union_spec hA z2.sub c2.sub
  cases u1.symm.trans u1'
  have hU : U = L := by
    refine WfSub.ext u4.1 hL.1 fun b => ?_
    rw [u4.2]
    refine ⟨fun hb => hb.2.elim (z3 b) fun hb' => (hL.2 b).2 ⟨hb.1, ?_⟩, fun hb => ⟨hL.1.lt b hb, z5 p c p1 c1 b hb⟩⟩
    have := commutator_sub hA p3 hr c1 (k := A.n - 2) (fun a ha => by
      have := ((hL.2 a).1 (p2 ▸ ha)).2; omega) (fun a ha => ((hB.2 a).1 (hs ▸ ha)).2) hb'
    have h2 : 2 ≤ A.n := by
      have := u4.1
      obtain ⟨a, ha⟩ : ∃ a, a ∈ r.sub.blades := by
        by_contra hn
        obtain ⟨S, v⟩ := r
        obtain ⟨_ | ⟨a, l⟩⟩ := S
        · obtain ⟨op, o1, o2, o3, o4⟩ := commutator_sem hA p3.sub hr.sub
          rw [MV.commutator, o1] at c1
          rw [call_sub c1, squeezed_out hA (commutator_squeezed hA p3.sub hr.sub o1) o4, o3] at hb'
          obtain ⟨idx, hidx, -⟩ := hb'
          cases hidx with
          | cons _ h' => cases h' with
            | cons h'' _ => simp at h''
        · exact hn ⟨a, List.mem_cons_self⟩
      have h2 := ((hB.2 a).1 (hs ▸ ha))
      have : popcount a ≤ A.n := by rw [popcount_of_lt hA.le32 h2.1]; exact pc_le A.n a
      omega
    omega
  refine ⟨w, ?_, w2.trans hU, w3, by rw [w4, z4, c3, p4]; rfl⟩
  simp only [Lie.forque, z1, p1, c1, lift_some, bind, Except.bind, w1]

include hA hB hL hI in
theorem energy_in {r : MV R} (hr : WfMV A r) (hs : r.sub = B) (dt : R) :
    ∃ z, Lie.energy A I dt r = .ok z ∧ WfMV A z ∧ SubOf z.sub L ∧ val A z = (dt / 2) • energyOf A B L I (val A r) := by
  obtain ⟨p, p1, p2, p3, p4⟩ := hI.call hr hs
  obtain ⟨w, w1, w2, w3⟩ := wedge_gives hA p3 hr
  obtain ⟨U, u1, x, x1, x2, x3, x4⟩ := mul_in hA w2 hr
  obtain ⟨z, z1, z2, z3, z4⟩ := mul_num hA x3 (dt / 2)
  refine ⟨z, ?_, z2, fun b hb => ?_, by rw [z4, x4, w3, p4]; rfl⟩
  · simp only [Lie.energy, p1, w1, x1, z1, lift_some, bind, Except.bind]
  · have hb' := z3 b hb
    rw [x2, u1.2] at hb'
    obtain ⟨lb, a, ha, c, hc, rfl, -⟩ := hb'
    obtain ⟨a', ha', c', hc', e⟩ := wedge_sub hA p3 hr w1 ha
    have h1 := ((hL.2 a').1 (p2 ▸ ha')).2
    have h2 := ((hB.2 c').1 (hs ▸ hc')).2
    have h3 := ((hB.2 c).1 (hs ▸ hc))
    have la := w2.sub.lt a ha
    have e1 := compl_pop hA la
    have ha0 : a = A.pss := by
      have h0 : pc A.n (a ^^^ A.pss) = 0 := by
        rw [← popcount_of_lt hA.le32 (xor_lt la (pss_lt A))]; omega
      rw [pc_eq_zero_iff] at h0
      refine Nat.eq_of_testBit_eq fun i => ?_
      by_cases hi : i < A.n
      · have := h0 i hi
        rw [Nat.testBit_xor] at this
        simpa using this
      · rw [Nat.testBit_lt_two_pow (la.trans_le (Nat.pow_le_pow_right (by omega) (by omega))),
          Nat.testBit_lt_two_pow ((pss_lt A).trans_le (Nat.pow_le_pow_right (by omega) (by omega)))]
    subst ha0
    have e2 := compl_pop hA h3.1
    rw [Nat.xor_comm] at e2
    exact (hL.2 _).2 ⟨lb, by omega⟩

include hJ in
theorem inv_in {x : Except Fail (MV R)} {v : Cl A R} (hx : OkIn A x L v) : OkIn A (do lift (einsumCallMV J [← x])) B (opMap A J L B v) := by
  obtain ⟨y, rfl, y2, y3, rfl⟩ := hx
  obtain ⟨z, z1, z2, z3, z4⟩ := hJ.call y3 y2
  exact ⟨z, by simp only [bind, Except.bind, z1, lift_some], z2, z3, z4⟩

include hA in
theorem num_in {x : MV R} (hx : WfMV A x) (c : R) : GivesIn A (x.mul A (.num c)) x.sub (c • val A x) := by
  obtain ⟨y, y1, y2, y3⟩ := mul_num_in hA hx c
  obtain ⟨z, z1, z2, z3, z4⟩ := mul_num hA hx c
  cases y1.symm.trans z1
  exact ⟨y, y1, y3, y2, z4⟩

include hA hB hL hI in
theorem impulse_in (hF : Forces A B L I ext F) {m r : MV R} (hm : WfMV A m) (he : EvenSub m.sub) (hr : WfMV A r) (hs : r.sub = B) (dt : R) :
    OkIn A (Lie.impulse A I ext dt m r) L ((dt / 2) • torque A B L I F (val A m) (val A r)) := by
  obtain ⟨y, y1, y2, y3, y4⟩ := forque_in hA hB hL hI hF hm he hr hs
  obtain ⟨z, z1, z2, z3, z4⟩ := num_in hA y3 (dt / 2)
  exact ⟨z, by simp only [Lie.impulse, y1, bind, Except.bind, z1, lift_some], z2.trans y2, z3, by rw [z4, y4]⟩

include hA hB hL hI hJ in
theorem newmark_in (hF : Forces A B L I ext F) {m r x : MV R} (hm : WfMV A m) (he : EvenSub m.sub) (hr : WfMV A r) (hs : r.sub = B) (hx : WfMV A x)
    (hxs : x.sub = B) (dt : R) : OkIn A (Lie.newmarkEquation A I J ext m r dt x) B
      (- val A x + val A r + (dt / 2) • opMap A J L B (torque A B L I F (val A m) (val A x))) := by
  obtain ⟨n, n1, n2, n3, n4⟩ := neg_in hx
  obtain ⟨a, a1, a2, a3, a4⟩ := (add_in hA n3 hr (by rw [n2, hxs, hs]; exact fun _ => id)).1
  obtain ⟨i, i1, i2, i3, i4⟩ := impulse_in hA hB hL hI hF hm he hx hxs dt
  obtain ⟨j, j1, j2, j3, j4⟩ := hJ.call i3 i2
  obtain ⟨z, z1, z2, z3, z4⟩ := (add_in hA a3 j3 (by rw [a2, n2, j2, hxs]; exact fun _ => id)).1
  refine ⟨z, ?_, z2.trans (a2.trans (n2.trans hxs)), z3, by rw [z4, a4, n4, j4, i4, map_smul]⟩
  simp only [Lie.newmarkEquation, n1, a1, i1, j1, z1, lift_some, bind, Except.bind]

include hA hB hL hI hJ in
theorem verlet_in (hF : Forces A B L I ext F) {m r x : MV R} (hm : WfMV A m) (he : EvenSub m.sub) (hr : WfMV A r) (hs : r.sub = B) (hx : WfMV A x)
    (hxs : x.sub = B) (dt : R) : OkIn A (Lie.verletEquation A I J ext m r dt x) B
      (- val A x + val A r + (dt / 2) • opMap A J L B (torque A B L I F (val A m) (val A x) - (dt / 2) • energyOf A B L I (val A x))) := by
  obtain ⟨n, n1, n2, n3, n4⟩ := neg_in hx
  obtain ⟨a, a1, a2, a3, a4⟩ := (add_in hA n3 hr (by rw [n2, hxs, hs]; exact fun _ => id)).1
  obtain ⟨i, i1, i2, i3, i4⟩ := forque_in hA hB hL hI hF hm he hx hxs
  obtain ⟨e, e1, e2, e3, e4⟩ := energy_in hA hB hL hI hx hxs dt
  obtain ⟨f, f1, f2, f3, f4⟩ := (add_in hA i3 e2 (by rw [i2]; exact e3)).2
  obtain ⟨j, j1, j2, j3, j4⟩ := hJ.call f3 (f2.trans i2)
  obtain ⟨k, k1, k2, k3, k4⟩ := num_in hA j3 (dt / 2)
  obtain ⟨z, z1, z2, z3, z4⟩ := (add_in hA a3 k3 (by rw [a2, n2, k2, j2, hxs]; exact fun _ => id)).1
  refine ⟨z, ?_, z2.trans (a2.trans (n2.trans hxs)), z3, by rw [z4, a4, n4, k4, j4, f4, i4, e4]⟩
  simp only [Lie.verletEquation, n1, a1, i1, e1, f1, j1, k1, z1, lift_some, bind, Except.bind]

include hA hB hL hI hJ in
/-- The last step of the rate in the variational method. -/
theorem verlet_last (hF : Forces A B L I ext F) {m x : MV R} (hm : WfMV A m) (he : EvenSub m.sub) (hx : WfMV A x) (hxs : x.sub = B) (dt : R) :
    OkIn A (do
      let f ← lift ((← Lie.forque A I ext m x).add A (.mv (← Lie.energy A I dt x)))
      lift (x.add A (.mv (← lift ((← lift (einsumCallMV J [f])).mul A (.num (dt / 2))))))) B
      (val A x + (dt / 2) • opMap A J L B (torque A B L I F (val A m) (val A x) + (dt / 2) • energyOf A B L I (val A x))) := by
  obtain ⟨i, i1, i2, i3, i4⟩ := forque_in hA hB hL hI hF hm he hx hxs
  obtain ⟨e, e1, e2, e3, e4⟩ := energy_in hA hB hL hI hx hxs dt
  obtain ⟨f, f1, f2, f3, f4⟩ := (add_in hA i3 e2 (by rw [i2]; exact e3)).1
  obtain ⟨j, j1, j2, j3, j4⟩ := hJ.call f3 (f2.trans i2)
  obtain ⟨k, k1, k2, k3, k4⟩ := num_in hA j3 (dt / 2)
  obtain ⟨z, z1, z2, z3, z4⟩ := (add_in hA hx k3 (by rw [k2, j2, hxs]; exact fun _ => id)).1
  refine ⟨z, ?_, z2.trans hxs, z3, by rw [z4, k4, j4, f4, i4, e4]⟩
  simp only [i1, e1, f1, j1, k1, z1, lift_some, bind, Except.bind]

theorem copy_some {x z : MV R} {v : List R} (hx : WfMV A x) (h : x.copy v = some z) : z = ⟨x.sub, v⟩ ∧ WfMV A z := by
  rw [MV.copy, MV.construct] at h
  split at h
  · rename_i hl
    cases h
    exact ⟨rfl, hx.sub, hl⟩
  · cases h

theorem copy_vals {x z : MV R} (hz : WfMV A z) (hs : z.sub = x.sub) : x.copy z.vals = some z := by
  rw [MV.copy, MV.construct, if_pos (by rw [hz.len, hs]), ← hs]

/-- A solver that finds roots. -/
def Exact (solver : (List R → Except Fail (List R)) → List R → Except Fail (List R)) : Prop :=
  ∀ fn x y, solver fn x = .ok y → ∃ w, fn y = .ok w ∧ ∀ a ∈ w, a = 0

theorem val_zero {z : MV R} (h : ∀ a ∈ z.vals, a = 0) : val A z = 0 := by
  rw [val, denote]
  obtain ⟨⟨S⟩, v⟩ := z
  simp only at h ⊢
  induction S generalizing v with
  | nil => simp
  | cons b S ih =>
    cases v with
    | nil => simp
    | cons c v =>
      rw [List.zipWith_cons_cons, List.sum_cons, h c List.mem_cons_self, zero_smul, zero_add, ih v fun a ha => h a (List.mem_cons_of_mem _ ha)]

theorem zero_val {z : MV R} (hz : WfMV A z) (h : val A z = 0) : ∀ a ∈ z.vals, a = 0 := by
  have e := mv_eq (y := ⟨z.sub, List.replicate z.sub.blades.length 0⟩) hz ⟨hz.sub, by simp⟩ rfl (by
    rw [h, val_zero]; intro a ha; exact List.eq_of_mem_replicate ha)
  intro a ha
  rw [e] at ha
  exact List.eq_of_mem_replicate ha

section
variable {solver : (List R → Except Fail (List R)) → List R → Except Fail (List R)} {func : MV R → Except Fail (MV R)} {x z : MV R}

theorem wrap_some (hx : WfMV A x) (h : Lie.solverWrap solver func x = .ok z) : WfMV A z ∧ z.sub = x.sub := by
  obtain ⟨v, -, h⟩ := bind_ok h
  obtain ⟨rfl, h⟩ := copy_some hx (lift_ok h)
  exact ⟨h, rfl⟩

theorem wrap_root (hs : Exact solver) (hx : WfMV A x) (h : Lie.solverWrap solver func x = .ok z) : ∃ w, func z = .ok w ∧ val A w = 0 := by
  obtain ⟨v, h1, h⟩ := bind_ok h
  obtain ⟨w, w1, w2⟩ := hs _ _ _ h1
  rw [lift_ok h] at w1
  obtain ⟨f, f1, f2⟩ := bind_ok (show func z >>= (fun w => .ok w.vals) = .ok w from w1)
  cases f2
  exact ⟨f, f1, val_zero w2⟩

/-- The equation that the solver gets. -/
def wrapped (func : MV R → Except Fail (MV R)) (x : MV R) (v : List R) : Except Fail (List R) := do .ok (← func (← lift (x.copy v))).vals

theorem wrap_of (hz : WfMV A z) (hs : z.sub = x.sub) (h : solver (wrapped func x) x.vals = .ok z.vals) : Lie.solverWrap solver func x = .ok z := by
  have h' : solver (fun v => do .ok (← func (← lift (x.copy v))).vals) x.vals = .ok z.vals := h
  rw [Lie.solverWrap, h']
  show lift (x.copy z.vals) = .ok z
  rw [copy_vals hz hs, lift_some]

theorem wrapped_root (hz : WfMV A z) (hs : z.sub = x.sub) {S : SubSpace} (h : OkIn A (func z) S 0) : ∃ w, wrapped func x z.vals = .ok w ∧ ∀ a ∈ w, a = 0 := by
  obtain ⟨w, w1, -, w3, w4⟩ := h
  refine ⟨w.vals, ?_, zero_val w3 w4⟩
  rw [wrapped, copy_vals hz hs, lift_some]
  show func z >>= (fun w => .ok w.vals) = .ok w.vals
  rw [w1]
  rfl

end

section
variable (h5 : A.n < 6) (h2 : (2 : R) ≠ 0) {fuel : Nat} (hf : 4 ≤ fuel)
include hA h5 h2 hf hB

theorem motorStep_spec {m r m' : MV R} (hm : WfMV A m) (he : EvenSub m.sub) (hr : WfMV A r) (hs : r.sub = B) {dt : R} (h : Lie.motorStep A fuel m r dt = .ok m') :
    WfMV A m' ∧ EvenSub m'.sub ∧ (val A m * CliffordAlgebra.reverse (val A m) = 1 → val A m' * CliffordAlgebra.reverse (val A m') = 1) ∧
      ∃ m'', Lie.motorStep A fuel m' r (-dt) = .ok m'' ∧ WfMV A m'' ∧ EvenSub m''.sub ∧ val A m'' = val A m := by
  obtain ⟨d, h3, h⟩ := bind_ok h
  obtain ⟨t, t1, t2, t3, t4⟩ := num_in hA hr dt
  rw [t1, lift_some] at h3
  cases h3
  obtain ⟨q, q1, q2, q3, q4⟩ := div_num hA fuel t3 h2
  obtain ⟨q', h3, h⟩ := bind_ok h
  cases q1.symm.trans h3
  obtain ⟨e, h1, h⟩ := bind_ok h
  have hq : Homogeneous 2 q := fun a ha => ((hB.2 a).1 (by rw [← hs, ← t2, ← q3]; exact ha)).2
  obtain ⟨e1, e2, e3, e4⟩ := exp2_spec hA h5 h2 hf q2 hq h1
  obtain ⟨y, y1, y2, y3⟩ := product_gives hA e1 hm
  have h' := lift_ok h
  rw [MV.mul] at h'
  cases y1.symm.trans h'
  refine ⟨y2, product_even hA e1 hm e2 he y1, fun hu => ?_, ?_⟩
  · rw [y3, CliffordAlgebra.reverse.map_mul, mul_assoc, ← mul_assoc (val A m), hu, one_mul, e3]
  obtain ⟨t', s1, s2, s3, s4⟩ := num_in hA hr (-dt)
  obtain ⟨q', r1, r2, r3, r4⟩ := div_num hA fuel s3 h2
  obtain ⟨e', f1, f2, f3, f4⟩ := e4 q' r2 (fun a ha => ((hB.2 a).1 (by rw [← hs, ← s2, ← r3]; exact ha)).2) (by rw [r4, q4, s4, t4]; module)
  obtain ⟨z, z1, z2, z3⟩ := product_gives hA f2 y2
  refine ⟨z, ?_, z2, product_even hA f2 y2 f3 (product_even hA e1 hm e2 he y1) z1, by rw [z3, y3, ← mul_assoc, f4, one_mul]⟩
  simp only [Lie.motorStep, s1, lift_some, bind, Except.bind, r1, f1]
  rw [MV.mul]
  show lift (e'.product A m') = _
  rw [z1, lift_some]

/-- The step of the motor in the variational method. -/
theorem verletMotor_spec {m r m' : MV R} (hm : WfMV A m) (he : EvenSub m.sub) (hr : WfMV A r) (hs : r.sub = B) {dt : R}
    (h : (do lift (m.mul A (.mv (← Lie.exp2 A fuel (← (← lift (r.mul A (.num dt))).truediv A fuel (.num (-4))))))) = .ok m') :
    WfMV A m' ∧ EvenSub m'.sub ∧ (val A m * CliffordAlgebra.reverse (val A m) = 1 → val A m' * CliffordAlgebra.reverse (val A m') = 1) ∧
      ∃ m'', (do lift (m'.mul A (.mv (← Lie.exp2 A fuel (← (← lift (r.mul A (.num (-dt)))).truediv A fuel (.num (-4))))))) = Except.ok (ε := Fail) m'' ∧
        WfMV A m'' ∧ EvenSub m''.sub ∧ val A m'' = val A m := by
  have h4 : (-4 : R) ≠ 0 := by rw [show (-4 : R) = -(2 * 2) by norm_num]; exact neg_ne_zero.2 (mul_ne_zero h2 h2)
  obtain ⟨d, h3, h⟩ := bind_ok h
  obtain ⟨t, t1, t2, t3, t4⟩ := num_in hA hr dt
  rw [t1, lift_some] at h3
  cases h3
  obtain ⟨q, q1, q2, q3, q4⟩ := div_num hA fuel t3 h4
  obtain ⟨q', h3, h⟩ := bind_ok h
  cases q1.symm.trans h3
  obtain ⟨e, h1, h⟩ := bind_ok h
  have hq : Homogeneous 2 q := fun a ha => ((hB.2 a).1 (by rw [← hs, ← t2, ← q3]; exact ha)).2
  obtain ⟨e1, e2, e3, e4⟩ := exp2_spec hA h5 h2 hf q2 hq h1
  obtain ⟨y, y1, y2, y3⟩ := product_gives hA hm e1
  have h' := lift_ok h
  rw [MV.mul] at h'
  cases y1.symm.trans h'
  refine ⟨y2, product_even hA hm e1 he e2 y1, fun hu => ?_, ?_⟩
  · rw [y3, CliffordAlgebra.reverse.map_mul, mul_assoc, ← mul_assoc (val A e), e3, one_mul, hu]
  obtain ⟨t', s1, s2, s3, s4⟩ := num_in hA hr (-dt)
  obtain ⟨q', r1, r2, r3, r4⟩ := div_num hA fuel s3 h4
  obtain ⟨e', f1, f2, f3, f4⟩ := e4 q' r2 (fun a ha => ((hB.2 a).1 (by rw [← hs, ← s2, ← r3]; exact ha)).2) (by rw [r4, q4, s4, t4]; module)
  obtain ⟨z, z1, z2, z3⟩ := product_gives hA y2 f2
  have f5 := mul_eq_one_comm.1 f4
  refine ⟨z, ?_, z2, product_even hA y2 f2 (product_even hA hm e1 he e2 y1) f3 z1, by rw [z3, y3, mul_assoc, f5, mul_one]⟩
  simp only [s1, lift_some, bind, Except.bind, r1, f1]
  rw [MV.mul]
  show lift (m'.product A e') = _
  rw [z1, lift_some]

end

end
end Verif
