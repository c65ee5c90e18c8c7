import Verif.Props.LieIntegrators
import Verif.Proofs.LeastSquares
/-! # C101: the Newton solver of the integrators -/
namespace Verif.Props
open Model Spec Model.Factory

section
variable {R : Type} [Field R] [DecidableEq R]

/-- A function of vectors with `n` entries. -/
def Vectors (n : Nat) (fn : List R → Except Fail (List R)) : Prop := ∀ x, x.length = n → ∃ w, fn x = .ok w ∧ w.length = n

variable {n : Nat} {fn : List R → Except Fail (List R)} {jac : List R → Nat → Nat → R}

/-- What one step of Newton does: the step `d` solves `jac x * d = - fn x`. -/
theorem newtonStep_some {x y w : List R} (hx : x.length = n) (hw : fn x = .ok w) (h : Lie.newtonStep fn jac x = .ok y) :
    ∃ d, d.length = n ∧ y = List.zipWith (· + ·) x d ∧ ∀ i < n, ∑ j ∈ Finset.range n, jac x i j * d.getD j 0 = - w.getD i 0 := by
  rw [Lie.newtonStep, hw] at h
  subst hx
  change (match linalgSolve x.length (jac x) (fun i => w.getD i 0) with
    | some d => Except.ok (List.zipWith (· - ·) x d)
    | none => Except.error Fail.divZero) = .ok y at h
  split at h
  swap
  · cases h
  rename_i d hd
  cases h
  obtain ⟨d1, d2⟩ := linalgSolve_some hd
  refine ⟨d.map (- ·), by simp [d1], ?_, fun i hi => ?_⟩
  · rw [List.zipWith_map_right]
    simp only [sub_eq_add_neg]
  · rw [← d2 i hi, ← Finset.sum_neg_distrib]
    refine Finset.sum_congr rfl fun j hj => ?_
    have hj' : j < d.length := by rw [d1]; exact Finset.mem_range.1 hj
    simp [List.getD_eq_getElem?_getD, hj']

/-- C101: a root with a regular Jacobian stays where it is, for any number of steps. -/
theorem C101_root {x w : List R} (hx : x.length = n) (hw : fn x = .ok w) (h0 : ∀ a ∈ w, a = 0)
    (hj : ∀ v : List R, v.length = n → (∀ i < n, ∑ j ∈ Finset.range n, jac x i j * v.getD j 0 = 0) → ∀ a ∈ v, a = 0) (k : Nat) :
    Lie.newtonSolver fn jac k x = .ok x := by
  have step : Lie.newtonStep fn jac x = .ok x := by
    have hg : ∀ i, w.getD i 0 = 0 := fun i => by
      rw [List.getD_eq_getElem?_getD]
      by_cases hi : i < w.length
      · simpa [hi] using h0 _ (List.getElem_mem hi)
      · simp [hi]
    cases hs : linalgSolve x.length (jac x) fun i => w.getD i 0 with
    | none =>
      obtain ⟨v, v1, ⟨j, v2, v3⟩, v4⟩ := linalgSolve_none.1 hs
      rw [hx] at v1 v2 v4
      refine absurd ?_ v3
      rw [List.getD_eq_getElem _ _ (by omega)]
      exact hj v v1 v4 _ (List.getElem_mem _)
    | some d =>
      obtain ⟨d1, d2⟩ := linalgSolve_some hs
      rw [hx] at d1 d2
      have hd := hj d d1 fun i hi => (d2 i hi).trans (hg i)
      rw [Lie.newtonStep, hw]
      change (match linalgSolve x.length (jac x) (fun i => w.getD i 0) with
        | some d => Except.ok (List.zipWith (· - ·) x d)
        | none => Except.error Fail.divZero) = .ok x
      rw [hs]
      refine congrArg Except.ok (List.ext_getElem (by rw [List.length_zipWith]; omega) fun i h1 h2 => ?_)
      rw [List.getElem_zipWith, hd _ (List.getElem_mem _), sub_zero]
  induction k with
  | zero => rfl
  | succ k ih =>
    rw [Lie.newtonSolver, step]
    exact ih

/-- C101: where a step of Newton stays, there is a root. -/
theorem C101_fixed (hf : Vectors n fn) {x : List R} (hx : x.length = n) (h : Lie.newtonStep fn jac x = .ok x) : ∃ w, fn x = .ok w ∧ ∀ a ∈ w, a = 0 := by
  obtain ⟨w, w1, w2⟩ := hf x hx
  obtain ⟨d, d1, d2, d3⟩ := newtonStep_some hx w1 h
  refine ⟨w, w1, fun a ha => ?_⟩
  obtain ⟨i, hi, rfl⟩ := List.getElem_of_mem ha
  have d0 : ∀ j, d.getD j 0 = 0 := by
    intro j
    by_cases hj : j < n
    · have := congrArg (·[j]?) d2
      simp only [List.getElem?_zipWith] at this
      rw [List.getElem?_eq_getElem (by omega), List.getElem?_eq_getElem (by omega)] at this
      simp only [Option.some_inj] at this
      rw [List.getD_eq_getElem _ _ (by omega)]
      simpa using this
    · rw [List.getD_eq_default _ _ (by omega)]
  have := d3 i (by omega)
  simp only [d0, mul_zero, Finset.sum_const_zero, List.getD_eq_getElem _ _ hi] at this
  exact neg_eq_zero.1 this.symm

/-- C101: for a function that is its linearisation plus `Q`, what is left after a step is exactly `Q` of the step. -/
theorem C101_step (hf : Vectors n fn) {Q : List R → List R → Nat → R}
    (hq : ∀ x d w w', x.length = n → d.length = n → fn x = .ok w → fn (List.zipWith (· + ·) x d) = .ok w' →
      ∀ i < n, w'.getD i 0 = w.getD i 0 + ∑ j ∈ Finset.range n, jac x i j * d.getD j 0 + Q x d i)
    {x y : List R} (hx : x.length = n) (h : Lie.newtonStep fn jac x = .ok y) :
    ∃ d w', d.length = n ∧ y = List.zipWith (· + ·) x d ∧ fn y = .ok w' ∧ w'.length = n ∧ ∀ i < n, w'.getD i 0 = Q x d i := by
  obtain ⟨w, w1, w2⟩ := hf x hx
  obtain ⟨d, d1, d2, d3⟩ := newtonStep_some hx w1 h
  obtain ⟨w', w3, w4⟩ := hf y (by rw [d2]; simp [hx, d1])
  refine ⟨d, w', d1, d2, w3, w4, fun i hi => ?_⟩
  rw [hq x d w w' hx d1 w1 (d2 ▸ w3) i hi, d3 i hi]
  ring

/-- C101: linear equations are solved by the first step, from any start, and by any larger number of steps. -/
theorem C101_linear (hf : Vectors n fn) {M : Nat → Nat → R}
    (hq : ∀ x d w w', x.length = n → d.length = n → fn x = .ok w → fn (List.zipWith (· + ·) x d) = .ok w' →
      ∀ i < n, w'.getD i 0 = w.getD i 0 + ∑ j ∈ Finset.range n, M i j * d.getD j 0)
    (hM : ∀ v : List R, v.length = n → (∀ i < n, ∑ j ∈ Finset.range n, M i j * v.getD j 0 = 0) → ∀ a ∈ v, a = 0) {x : List R} (hx : x.length = n) (k : Nat) :
    ∃ y w, Lie.newtonSolver fn (fun _ => M) (k + 1) x = .ok y ∧ y.length = n ∧ fn y = .ok w ∧ ∀ a ∈ w, a = 0 := by
  obtain ⟨w, w1, w2⟩ := hf x hx
  cases hs : linalgSolve x.length M fun i => w.getD i 0 with
  | none =>
    obtain ⟨v, v1, ⟨j, v2, v3⟩, v4⟩ := linalgSolve_none.1 hs
    rw [hx] at v1 v2 v4
    refine absurd ?_ v3
    rw [List.getD_eq_getElem _ _ (by omega)]
    exact hM v v1 v4 _ (List.getElem_mem _)
  | some d =>
    have step : Lie.newtonStep fn (fun _ => M) x = .ok (List.zipWith (· - ·) x d) := by
      rw [Lie.newtonStep, w1]
      change (match linalgSolve x.length M (fun i => w.getD i 0) with
        | some d => Except.ok (List.zipWith (· - ·) x d)
        | none => Except.error Fail.divZero) = _
      rw [hs]
    obtain ⟨e, w', e1, e2, e3, e4, e5⟩ := C101_step (jac := fun _ => M) (Q := fun _ _ _ => 0) hf (by simpa using hq) hx step
    have h0 : ∀ a ∈ w', a = 0 := by
      intro a ha
      obtain ⟨i, hi, rfl⟩ := List.getElem_of_mem ha
      rw [← List.getD_eq_getElem _ 0 hi]
      exact e5 i (by omega)
    have hl : (List.zipWith (· - ·) x d).length = n := by rw [e2]; simp [hx, e1]
    refine ⟨_, w', ?_, hl, e3, h0⟩
    rw [Lie.newtonSolver, step]
    exact C101_root hl e3 h0 hM k

end

section
variable {A : Alg} {R : Type} [Field R] [DecidableEq R] (hA : WfAlg A)
  {B L : SubSpace} (hB : IsSpace A B fun b => popcount b = 2) (hL : IsSpace A L fun b => popcount b + 2 = A.n)
  {I J : Operator R} (hI : Unary A I B L) (hJ : Unary A J L B) {ext : MV R → MV R → Except Fail (MV R)} {F : Cl A R → Cl A R}
include hA hB hL hI hJ

/-- C101: the implicit equation of the Newmark methods with a force that does not depend on the rate is quadratic: after a step of Newton with
the derivative as Jacobian what is left is `-(dt/2) * inertia_inv(inertia(d).commutator(d))` of the step `d`. -/
theorem C101_newmark (hF : Forces A B L I ext fun m _ => F m) {m r : MV R} (hm : WfMV A m) (he : EvenSub m.sub) (hr : WfMV A r) (hs : r.sub = B) {dt : R}
    {jac : List R → Nat → Nat → R}
    (hj : ∀ x d : Fin B.blades.length → R, val A (mvOf B fun i => ∑ j : Fin B.blades.length, jac (List.ofFn x) i j * d j) =
      - val A (mvOf B d) - (dt / 2) • opMap A J L B (comm A R (opMap A I B L (val A (mvOf B x))) (val A (mvOf B d)) +
        comm A R (opMap A I B L (val A (mvOf B d))) (val A (mvOf B x))))
    {x y : Fin B.blades.length → R} (h : Lie.newtonStep (wrapped (Lie.newmarkEquation A I J ext m r dt) r) jac (List.ofFn x) = .ok (List.ofFn y)) :
    OkIn A (Lie.newmarkEquation A I J ext m r dt (mvOf B y)) B
      (- (dt / 2) • opMap A J L B (comm A R (opMap A I B L (val A (mvOf B (y - x)))) (val A (mvOf B (y - x))))) := by
  obtain ⟨z, z1, z2, z3, z4⟩ := newmark_in hA hB hL hI hJ hF hm he hr hs (wf_mvOf hB.1 x) rfl dt
  obtain ⟨u, u1, u2, u3, u4⟩ := newmark_in hA hB hL hI hJ hF hm he hr hs (wf_mvOf hB.1 y) rfl dt
  refine ⟨u, u1, u2, u3, ?_⟩
  have hw : wrapped (Lie.newmarkEquation A I J ext m r dt) r (List.ofFn x) = .ok z.vals := by
    rw [wrapped, show List.ofFn x = (mvOf B x).vals from rfl, copy_vals (wf_mvOf hB.1 x) hs.symm, lift_some]
    show Lie.newmarkEquation A I J ext m r dt (mvOf B x) >>= _ = _
    rw [z1]
    rfl
  obtain ⟨d, d1, d2, d3⟩ := newtonStep_some (n := B.blades.length) (by simp) hw h
  obtain ⟨e, rfl⟩ : ∃ e : Fin B.blades.length → R, d = List.ofFn e := ⟨fun i => d.getD i 0, by
    refine List.ext_getElem (by simp [d1]) fun i h1 h2 => ?_
    simp [List.getD_eq_getElem?_getD, h1]⟩
  have hy : y = x + e := by
    funext i
    have := congrArg (·.getD i 0) d2
    simpa [List.getD_eq_getElem?_getD, List.getElem?_zipWith] using this
  have hd : val A (mvOf B fun i => ∑ j : Fin B.blades.length, jac (List.ofFn x) i j * e j) = - val A z := by
    obtain ⟨c, rfl⟩ := mvOf_of z3 z2
    have : (fun i : Fin B.blades.length => ∑ j : Fin B.blades.length, jac (List.ofFn x) i j * e j) = - c := by
      funext i
      have := d3 i i.2
      rw [Finset.sum_range] at this
      simpa [List.getD_eq_getElem?_getD, mvOf] using this
    rw [this]
    simp [val_mvOf]
  rw [hj] at hd
  have hxe : val A (mvOf B y) = val A (mvOf B x) + val A (mvOf B e) := by
    rw [hy]; simp [val_mvOf, add_smul, Finset.sum_add_distrib]
  rw [u4, hxe, show y - x = e by rw [hy]; abel]
  have := hd.trans (congrArg (- ·) z4)
  simp only [torque, map_add, map_sub, LinearMap.add_apply] at this ⊢
  generalize opMap A J L B (F (val A m)) = f at *
  generalize val A (mvOf B x) = a at *
  generalize val A (mvOf B e) = b at *
  generalize opMap A J L B (comm A R (opMap A I B L a) a) = c1 at *
  generalize opMap A J L B (comm A R (opMap A I B L a) b) = c2 at *
  generalize opMap A J L B (comm A R (opMap A I B L b) a) = c3 at *
  generalize opMap A J L B (comm A R (opMap A I B L b) b) = c4 at *
  have e2 : -b - (dt / 2) • (c2 + c3) + (-a + val A r + (dt / 2) • (f - c1)) = 0 := by rw [this]; abel
  calc _ = -b - (dt / 2) • (c2 + c3) + (-a + val A r + (dt / 2) • (f - c1)) + -(dt / 2) • c4 := by module
    _ = _ := by rw [e2, zero_add]

end

section
variable {A : Alg} {R : Type} [Field R] {B L : SubSpace}

theorem coef_mvOf (hB : WfSub A B) (u : Fin B.blades.length → R) (i : Fin B.blades.length) : coef A R B.blades[i] (val A (mvOf B u)) = u i := by
  rw [val_mvOf, map_sum, Finset.sum_eq_single i]
  · rw [map_smul, coef_blade A R (a := B.blades[i]) (hB.lt _ (List.getElem_mem i.2)), if_pos rfl, smul_eq_mul, mul_one]
  · intro j _ hj
    rw [map_smul, coef_blade A R (a := B.blades[j]) (hB.lt _ (List.getElem_mem j.2)), if_neg, smul_zero]
    intro e
    exact hj (Fin.ext ((hB.nodup.getElem_inj_iff).1 e.symm))
  · simp

theorem opMap_within (J : Operator R) (v : Cl A R) : ∃ u : Fin B.blades.length → R, opMap A J L B v = val A (mvOf B u) := by
  refine ⟨fun j => ∑ i ∈ Finset.range L.blades.length, coef A R (L.blades.getD i 0) v * J.kernel.get [i, j], ?_⟩
  rw [val_mvOf, opMap]
  simp only [LinearMap.sum_apply, LinearMap.smulRight_apply, Finset.sum_smul]
  rw [Finset.sum_comm, Finset.sum_range]
  refine Finset.sum_congr rfl fun j _ => Finset.sum_congr rfl fun i _ => ?_
  rw [smul_smul, List.getD_eq_getElem _ _ j.2]
  rfl

/-- The Jacobian of the implicit equation of the Newmark methods exists. -/
theorem newmark_jacobian (hB : WfSub A B) (I J : Operator R) (dt : R) :
    ∃ jac : List R → Nat → Nat → R, ∀ x d : Fin B.blades.length → R, val A (mvOf B fun i => ∑ j : Fin B.blades.length, jac (List.ofFn x) i j * d j) =
      - val A (mvOf B d) - (dt / 2) • opMap A J L B (comm A R (opMap A I B L (val A (mvOf B x))) (val A (mvOf B d)) +
        comm A R (opMap A I B L (val A (mvOf B d))) (val A (mvOf B x))) := by
  let D : List R → Cl A R →ₗ[R] Cl A R := fun xs => - LinearMap.id - (dt / 2) • (opMap A J L B ∘ₗ (comm A R (opMap A I B L (denote A R B xs)) +
    (comm A R).flip (denote A R B xs) ∘ₗ opMap A I B L))
  refine ⟨fun xs i j => coef A R (B.blades.getD i 0) (D xs (blade A R (B.blades.getD j 0))), fun x d => ?_⟩
  obtain ⟨w, hw⟩ := opMap_within (B := B) (L := L) J (comm A R (opMap A I B L (val A (mvOf B x))) (val A (mvOf B d)) +
        comm A R (opMap A I B L (val A (mvOf B d))) (val A (mvOf B x)))
  have e : D (List.ofFn x) (val A (mvOf B d)) = val A (mvOf B (- d - (dt / 2) • w)) := by
    have : D (List.ofFn x) (val A (mvOf B d)) = - val A (mvOf B d) - (dt / 2) • opMap A J L B (comm A R (opMap A I B L (val A (mvOf B x))) (val A (mvOf B d)) +
        comm A R (opMap A I B L (val A (mvOf B d))) (val A (mvOf B x))) := rfl
    rw [this, hw]
    simp only [val_mvOf, Pi.sub_apply, Pi.neg_apply, Pi.smul_apply, smul_eq_mul, sub_smul, neg_smul, mul_smul, Finset.sum_sub_distrib, Finset.sum_neg_distrib,
      Finset.smul_sum]
  have e2 : (fun i : Fin B.blades.length => ∑ j : Fin B.blades.length, coef A R (B.blades.getD i 0) (D (List.ofFn x) (blade A R (B.blades.getD j 0))) * d j) =
      - d - (dt / 2) • w := by
    funext i
    have h1 := congrArg (coef A R B.blades[i]) e
    rw [coef_mvOf hB, val_mvOf, map_sum, map_sum] at h1
    rw [← h1]
    refine Finset.sum_congr rfl fun j _ => ?_
    rw [map_smul, map_smul, List.getD_eq_getElem _ _ i.2, List.getD_eq_getElem _ _ j.2, smul_eq_mul, mul_comm]
    rfl
  rw [e2, ← e]
  rfl

end

/-! ### examples -/
section
/-- `x ↦ x² - 4`. -/
private def parabola (x : List ℚ) : Except Fail (List ℚ) := .ok (x.map fun a => a * a - 4)
private def slope (x : List ℚ) (_ _ : Nat) : ℚ := 2 * x.getD 0 0
private theorem parabola_vectors : Vectors 1 parabola := fun x hx => ⟨_, rfl, by simp [hx]⟩
private theorem one_entry {v : List ℚ} {c : ℚ} (hc : c ≠ 0) (hv : v.length = 1) (h : ∀ i < 1, ∑ j ∈ Finset.range 1, c * v.getD j 0 = 0) : ∀ a ∈ v, a = 0 := by
  obtain ⟨a, rfl⟩ := List.length_eq_one_iff.1 hv
  have := h 0 (by decide)
  simp only [Finset.sum_range_one, List.getD_cons_zero, mul_eq_zero, hc, false_or] at this
  intro b hb
  rw [List.mem_singleton.1 hb, this]
example (k : Nat) : Lie.newtonSolver parabola slope k [2] = .ok [2] :=
  C101_root (fn := parabola) (jac := slope) (n := 1) (x := [2]) (w := [2 * 2 - 4]) rfl rfl (by norm_num) (fun v hv h => one_entry (c := 2 * 2) (by norm_num) hv h) k
/-- A step from 1 leads to 5/2, and `(5/2)² - 4` is the square of the step. -/
example {y : List ℚ} (h : Lie.newtonStep parabola slope [1] = .ok y) : ∃ d w', d.length = 1 ∧ y = List.zipWith (· + ·) [1] d ∧ parabola y = .ok w' ∧ w'.length = 1 ∧
    ∀ i < 1, w'.getD i 0 = d.getD 0 0 * d.getD 0 0 :=
  C101_step (jac := slope) (Q := fun _ d _ => d.getD 0 0 * d.getD 0 0) parabola_vectors (by
    intro x d w w' hx hd hw hw' i hi
    obtain ⟨a, rfl⟩ := List.length_eq_one_iff.1 hx
    obtain ⟨b, rfl⟩ := List.length_eq_one_iff.1 hd
    cases hw
    cases hw'
    interval_cases i
    simp [slope]
    ring) rfl h
example : Lie.newtonStep parabola slope [1] = .ok [5/2] := by
  have : linalgSolve 1 (slope [1]) (fun i => ([(-3 : ℚ)] : List ℚ).getD i 0) = some [-3/2] := by
    rw [linalgSolve]
    simp [slope, Matrix.det_unique]
  have e : parabola [1] = .ok [-3] := by norm_num [parabola]
  rw [Lie.newtonStep, e]
  simp only [bind, Except.bind, List.length_singleton, this]
  norm_num
private theorem at_root : Lie.newtonStep parabola slope [2] = .ok [2] := by
  have : linalgSolve 1 (slope [2]) (fun i => ([(0 : ℚ)] : List ℚ).getD i 0) = some [0] := by
    rw [linalgSolve]
    simp [slope, Matrix.det_unique]
  have e : parabola [2] = .ok [0] := by norm_num [parabola]
  rw [Lie.newtonStep, e]
  simp only [bind, Except.bind, List.length_singleton, this]
  norm_num
example : ∃ w, parabola [2] = .ok w ∧ ∀ a ∈ w, a = 0 := C101_fixed parabola_vectors rfl at_root
open LieEx in
private theorem wheel_comm (v w : Cl euc2 ℚ) : comm euc2 ℚ (opMap euc2 wheel bv sc v) w = 0 := by
  have h : opMap euc2 wheel bv sc v = (coef euc2 ℚ 3 v * 2) • 1 := by
    simp [opMap, bv, sc, wheel, mul_smul, blade_zero]
  have := two_comm (R := ℚ) wf_euc2 (opMap euc2 wheel bv sc v) w
  rw [h, smul_mul_assoc, one_mul, mul_smul_comm, mul_one, sub_self] at this
  rw [h]
  simpa using this
open LieEx in
private theorem wheel_step : Lie.newtonStep (wrapped (Lie.newmarkEquation euc2 wheel wheelInv motor4 m0 r0 (1/2)) r0) (fun _ _ _ => -1) [1] = .ok [3/2] := by
  have : linalgSolve 1 (fun _ _ => (-1 : ℚ)) (fun i => ([(1/2 : ℚ)] : List ℚ).getD i 0) = some [-1/2] := by
    rw [linalgSolve]
    simp [Matrix.det_unique]
    norm_num
  have e : wrapped (Lie.newmarkEquation euc2 wheel wheelInv motor4 m0 r0 (1/2)) r0 [1] = .ok [1/2] := by decide +kernel
  rw [Lie.newtonStep, e]
  simp only [bind, Except.bind, List.length_singleton, this]
  norm_num
open LieEx in
/-- The wheel under a constant torque for the time 1/2: one step leads from the rate 1 to 3/2, and nothing is left of the equation. -/
example : OkIn euc2 (Lie.newmarkEquation euc2 wheel wheelInv motor4 m0 r0 (1/2) ⟨bv, [3/2]⟩) bv 0 := by
  have := C101_newmark wf_euc2 bv_space sc_space wheel_un wheelInv_un motor4_forces wf_m0.1 wf_m0.2.1 wf_m0.2.2 rfl (dt := 1/2) (jac := fun _ _ _ => -1)
    (fun x d => by
      rw [wheel_comm, wheel_comm]
      have : ∀ i : Fin bv.blades.length, ∑ j : Fin bv.blades.length, (-1 : ℚ) * d j = - d i := fun i => by
        have : Subsingleton (Fin bv.blades.length) := inferInstanceAs (Subsingleton (Fin 1))
        rw [Fintype.sum_subsingleton _ i, neg_one_mul]
      rw [show (fun i : Fin bv.blades.length => ∑ j : Fin bv.blades.length, (fun (_ : List ℚ) (_ _ : Nat) => (-1 : ℚ)) (List.ofFn x) i j * d j) = _ from funext this]
      simp [val_mvOf])
    (x := fun _ => 1) (y := fun _ => 3/2) wheel_step
  rw [wheel_comm, map_zero, smul_zero] at this
  exact this
/-- `x ↦ 3x + 1`. -/
private def line (x : List ℚ) : Except Fail (List ℚ) := .ok (x.map fun a => 3 * a + 1)
example (k : Nat) : ∃ y w, Lie.newtonSolver line (fun _ _ _ => 3) (k + 1) [7] = .ok y ∧ y.length = 1 ∧ line y = .ok w ∧ ∀ a ∈ w, a = 0 :=
  C101_linear (fun x hx => ⟨_, rfl, by simp [hx]⟩) (by
    intro x d w w' hx hd hw hw' i hi
    obtain ⟨a, rfl⟩ := List.length_eq_one_iff.1 hx
    obtain ⟨b, rfl⟩ := List.length_eq_one_iff.1 hd
    cases hw
    cases hw'
    interval_cases i
    simp
    ring) (fun v hv h => one_entry (by norm_num) hv h) rfl k
end

end Verif.Props
