import Verif.Model.Integrators
import Verif.Spec.Integrators
import Verif.Proofs.Conformal
import Verif.Proofs.RungeKutta
/-! # Runge-Kutta steps on coefficients -/
namespace Verif
open Model Spec Factory Props

variable {A : Alg} {R : Type}

theorem wf_mvOf {S : SubSpace} (hS : WfSub A S) (u : Fin S.blades.length → R) : WfMV A (mvOf S u) := ⟨hS, by simp [mvOf]⟩

theorem val_mvOf [CommRing R] (S : SubSpace) (u : Fin S.blades.length → R) :
    val A (mvOf S u) = ∑ i : Fin S.blades.length, u i • blade A R S.blades[i] := by
  rw [mvOf, val, denote, ← List.sum_ofFn]
  congr 1
  apply List.ext_getElem
  · simp
  · intro i h1 h2
    simp

theorem mvOf_val [CommRing R] {S : SubSpace} {z : MV R} (hz : WfMV A z) (hs : z.sub = S) {u : Fin S.blades.length → R} (h : val A z = val A (mvOf S u)) :
    z = mvOf S u := mv_eq hz (wf_mvOf (hs ▸ hz.sub) u) hs h

section
variable [Field R] (hA : WfAlg A) {S : SubSpace} (hS : WfSub A S)
include hA hS

theorem union_same : S.union A S = some S := by
  obtain ⟨U, u1, u2⟩ := union_spec hA hS hS
  rw [u1]
  congr 1
  refine WfSub.ext u2.1 hS fun b => ?_
  rw [u2.2]
  exact ⟨fun hb => hb.2.elim id id, fun hb => ⟨hS.lt b hb, Or.inl hb⟩⟩

theorem plus_mvOf (u v : Fin S.blades.length → R) : Integrators.plus A (mvOf S u) (mvOf S v) = .ok (mvOf S (u + v)) := by
  obtain ⟨U, u1, ⟨z, z1, z2, z3, z4⟩, _⟩ := C44_sum hA (wf_mvOf hS u) (wf_mvOf hS v)
  cases (union_same hA hS).symm.trans u1
  rw [Integrators.plus, z1, lift_some]
  congr 1
  refine mvOf_val z3 z2 ?_
  simp only [z4, val_mvOf, Pi.add_apply, add_smul, Finset.sum_add_distrib]

theorem minus_mvOf (u v : Fin S.blades.length → R) : Integrators.minus A (mvOf S u) (mvOf S v) = .ok (mvOf S (u - v)) := by
  obtain ⟨U, u1, _, ⟨z, z1, z2, z3, z4⟩, _⟩ := C44_sum hA (wf_mvOf hS u) (wf_mvOf hS v)
  cases (union_same hA hS).symm.trans u1
  rw [Integrators.minus, z1, lift_some]
  congr 1
  refine mvOf_val z3 z2 ?_
  simp only [z4, val_mvOf, Pi.sub_apply, sub_smul, Finset.sum_sub_distrib]

omit hS in
theorem one_in : (⟨[0]⟩ : SubSpace) = ⟨[0]⟩ ∧ WfSub A ⟨[0]⟩ := ⟨rfl, (scalar_eq hA).2⟩

theorem scale_mvOf (c : R) (u : Fin S.blades.length → R) : Integrators.scale A c (mvOf S u) = .ok (mvOf S (c • u)) := by
  obtain ⟨u1, u2⟩ := upcast_num' (R := R) hA c
  obtain ⟨U, v1, z, z1, z2, z3, z4⟩ := mul_in hA u2 (wf_mvOf hS u)
  have hU : U = S := by
    refine WfSub.ext v1.1 hS fun b => ?_
    rw [v1.2]
    simp only [List.mem_singleton, exists_eq_left, Nat.zero_xor]
    constructor
    · rintro ⟨_, a, ha, rfl, _⟩; exact ha
    · exact fun hb => ⟨hS.lt b hb, b, hb, rfl, by rw [sgn_disjoint (by simp)]; simp⟩
  have e : (mvOf S u).rmul A (.num c) = some z := by rw [MV.rmul, u1]; exact z1
  rw [Integrators.scale, e, lift_some]
  congr 1
  refine mvOf_val z3 (z2.trans hU) ?_
  rw [z4, val_mvOf, val_mvOf]
  simp [val, denote, blade_zero, Finset.smul_sum, mul_smul]

theorem mul_mvOf (c : R) (u : Fin S.blades.length → R) : (mvOf S u).mul A (.num c) = some (mvOf S (c • u)) := by
  obtain ⟨u1, u2⟩ := upcast_num' (R := R) hA c
  obtain ⟨U, v1, z, z1, z2, z3, z4⟩ := mul_in hA (wf_mvOf hS u) u2
  have hU : U = S := by
    refine WfSub.ext v1.1 hS fun b => ?_
    rw [v1.2]
    simp only [List.mem_singleton, exists_eq_left, Nat.xor_zero]
    constructor
    · rintro ⟨_, a, ha, rfl, _⟩; exact ha
    · exact fun hb => ⟨hS.lt b hb, b, hb, rfl, by rw [sgn_disjoint (by simp)]; simp [inv]⟩
  have e : (mvOf S u).mul A (.num c) = some z := by rw [MV.mul, u1]; exact z1
  rw [e]
  congr 1
  refine mvOf_val z3 (z2.trans hU) ?_
  rw [z4, val_mvOf, val_mvOf]
  simp [val, denote, blade_zero, Finset.smul_sum, mul_smul]

theorem combination_mvOf (u : Fin S.blades.length → R) (l : List (Int × (Fin S.blades.length → R))) :
    Integrators.combination A (mvOf S u) (l.map fun ck => (ck.1, mvOf S ck.2)) =
      .ok (mvOf S (u + (l.map fun ck => ((ck.1 : Int) : R) • ck.2).sum)) := by
  induction l generalizing u with
  | nil => simp [Integrators.combination]
  | cons a l ih =>
    obtain ⟨c, k⟩ := a
    rw [List.map_cons, Integrators.combination]
    split
    · simp only [scale_mvOf hA hS, bind, Except.bind, minus_mvOf hA hS, ih]
      congr 2
      simp only [List.map_cons, List.sum_cons]
      push_cast
      module
    · simp only [scale_mvOf hA hS, bind, Except.bind, plus_mvOf hA hS, ih]
      congr 2
      simp only [List.map_cons, List.sum_cons]
      module

end

/-! ## The steps on coefficients -/
namespace RK
variable {E : Type*} [AddCommGroup E] [Field R] [Module R E] (F : E → E) (y : E) (h : R)

/-- The classical method. -/
def rk4 : E :=
  let k1 := F y
  let k2 := F (y + (1 / 2 * h) • k1)
  let k3 := F (y + (1 / 2 * h) • k2)
  let k4 := F (y + h • k3)
  y + (h / 3) • (k2 + k3 + (1 / 2 : R) • (k1 + k4))

/-- The stages of the ten stage method. -/
def s1 (_h : R) : E := F y
/-- Stage 2. -/
def s2 : E := F (y + (h * 4 / 27) • s1 F y h)
/-- Stage 3. -/
def s3 : E := F (y + (h / 18) • (s1 F y h + (3 : R) • s2 F y h))
/-- Stage 4. -/
def s4 : E := F (y + (h / 12) • (s1 F y h + (3 : R) • s3 F y h))
/-- Stage 5. -/
def s5 : E := F (y + (h / 8) • (s1 F y h + (3 : R) • s4 F y h))
/-- Stage 6. -/
def s6 : E := F (y + (h / 54) • ((13 : R) • s1 F y h + ((-27 : R) • s3 F y h + ((42 : R) • s4 F y h + (8 : R) • s5 F y h))))
/-- Stage 7. -/
def s7 : E := F (y + (h / 4320) • ((389 : R) • s1 F y h + ((-54 : R) • s3 F y h + ((966 : R) • s4 F y h + ((-824 : R) • s5 F y h + (243 : R) • s6 F y h)))))
/-- Stage 8. -/
def s8 : E := F (y + (h / 20) • ((-234 : R) • s1 F y h + ((81 : R) • s3 F y h + ((-1164 : R) • s4 F y h + ((656 : R) • s5 F y h + ((-122 : R) • s6 F y h + (800 : R) • s7 F y h))))))
/-- Stage 9. -/
def s9 : E := F (y + (h / 288) • ((-127 : R) • s1 F y h + ((18 : R) • s3 F y h + ((-678 : R) • s4 F y h + ((456 : R) • s5 F y h + ((-9 : R) • s6 F y h + ((576 : R) • s7 F y h + (4 : R) • s8 F y h)))))))
/-- Stage 10. -/
def s10 : E := F (y + (h / 820) • ((1481 : R) • s1 F y h + ((-81 : R) • s3 F y h + ((7104 : R) • s4 F y h + ((-3376 : R) • s5 F y h + ((72 : R) • s6 F y h + ((-5040 : R) • s7 F y h + ((-60 : R) • s8 F y h + (720 : R) • s9 F y h))))))))
/-- The ten stage method. -/
def rk8 : E := y + (h / 840) • ((41 : R) • s1 F y h + ((27 : R) • s4 F y h + ((272 : R) • s5 F y h + ((27 : R) • s6 F y h + ((216 : R) • s7 F y h + ((216 : R) • s9 F y h + (41 : R) • s10 F y h))))))

end RK

section
variable [Field R] (hA : WfAlg A) {S : SubSpace} (hS : WfSub A S) {f : MV R → Except Fail (MV R)}
  {F : (Fin S.blades.length → R) → Fin S.blades.length → R} (hf : ActsAs S f F) (y : Fin S.blades.length → R) (h : R)
include hA hS hf

theorem RK1_mvOf : Integrators.RK1 A f (mvOf S y) h = .ok (mvOf S (y + h • F y)) := by
  simp only [Integrators.RK1, hf _, bind, Except.bind, mul_mvOf hA hS, lift_some, plus_mvOf hA hS]

theorem RK4_mvOf : Integrators.RK4 A f (mvOf S y) h = .ok (mvOf S (RK.rk4 F y h)) := by
  simp only [Integrators.RK4, hf _, bind, Except.bind, scale_mvOf hA hS, mul_mvOf hA hS, lift_some, plus_mvOf hA hS, RK.rk4]

theorem RK8_mvOf : Integrators.RK8 A f (mvOf S y) h = .ok (mvOf S (RK.rk8 F y h)) := by
  have c1 := fun u c1 k1 => combination_mvOf (R := R) hA hS u [(c1, k1)]
  have c3 := fun u c1 k1 c2 k2 c3 k3 => combination_mvOf (R := R) hA hS u [(c1, k1), (c2, k2), (c3, k3)]
  have c4 := fun u c1 k1 c2 k2 c3 k3 c4 k4 => combination_mvOf (R := R) hA hS u [(c1, k1), (c2, k2), (c3, k3), (c4, k4)]
  have c5 := fun u c1 k1 c2 k2 c3 k3 c4 k4 c5 k5 => combination_mvOf (R := R) hA hS u [(c1, k1), (c2, k2), (c3, k3), (c4, k4), (c5, k5)]
  have c6 := fun u c1 k1 c2 k2 c3 k3 c4 k4 c5 k5 c6 k6 =>
    combination_mvOf (R := R) hA hS u [(c1, k1), (c2, k2), (c3, k3), (c4, k4), (c5, k5), (c6, k6)]
  have c7 := fun u c1 k1 c2 k2 c3 k3 c4 k4 c5 k5 c6 k6 c7 k7 =>
    combination_mvOf (R := R) hA hS u [(c1, k1), (c2, k2), (c3, k3), (c4, k4), (c5, k5), (c6, k6), (c7, k7)]
  simp only [List.map_cons, List.map_nil, List.sum_cons, List.sum_nil, add_zero] at c1 c3 c4 c5 c6 c7
  have e1 : F y = RK.s1 F y h := rfl
  have e2 : F (y + (h * 4 / 27) • RK.s1 F y h) = RK.s2 F y h := rfl
  have e3 : F (y + (h / 18) • (RK.s1 F y h + (3 : R) • RK.s2 F y h)) = RK.s3 F y h := rfl
  have e4 : F (y + (h / 12) • (RK.s1 F y h + (3 : R) • RK.s3 F y h)) = RK.s4 F y h := rfl
  have e5 : F (y + (h / 8) • (RK.s1 F y h + (3 : R) • RK.s4 F y h)) = RK.s5 F y h := rfl
  have e6 : F (y + (h / 54) • ((13 : R) • RK.s1 F y h + ((-27 : R) • RK.s3 F y h + ((42 : R) • RK.s4 F y h + (8 : R) • RK.s5 F y h)))) = RK.s6 F y h := rfl
  have e7 : F (y + (h / 4320) • ((389 : R) • RK.s1 F y h + ((-54 : R) • RK.s3 F y h + ((966 : R) • RK.s4 F y h + ((-824 : R) • RK.s5 F y h + (243 : R) • RK.s6 F y h))))) = RK.s7 F y h := rfl
  have e8 : F (y + (h / 20) • ((-234 : R) • RK.s1 F y h + ((81 : R) • RK.s3 F y h + ((-1164 : R) • RK.s4 F y h + ((656 : R) • RK.s5 F y h + ((-122 : R) • RK.s6 F y h + (800 : R) • RK.s7 F y h)))))) = RK.s8 F y h := rfl
  have e9 : F (y + (h / 288) • ((-127 : R) • RK.s1 F y h + ((18 : R) • RK.s3 F y h + ((-678 : R) • RK.s4 F y h + ((456 : R) • RK.s5 F y h + ((-9 : R) • RK.s6 F y h + ((576 : R) • RK.s7 F y h + (4 : R) • RK.s8 F y h))))))) = RK.s9 F y h := rfl
  have e10 : F (y + (h / 820) • ((1481 : R) • RK.s1 F y h + ((-81 : R) • RK.s3 F y h + ((7104 : R) • RK.s4 F y h + ((-3376 : R) • RK.s5 F y h + ((72 : R) • RK.s6 F y h + ((-5040 : R) • RK.s7 F y h + ((-60 : R) • RK.s8 F y h + (720 : R) • RK.s9 F y h)))))))) = RK.s10 F y h := rfl
  have ef : y + (h / 840) • ((41 : R) • RK.s1 F y h + ((27 : R) • RK.s4 F y h + ((272 : R) • RK.s5 F y h + ((27 : R) • RK.s6 F y h + ((216 : R) • RK.s7 F y h + ((216 : R) • RK.s9 F y h + (41 : R) • RK.s10 F y h)))))) = RK.rk8 F y h := rfl
  generalize RK.rk8 F y h = z at ef ⊢
  generalize RK.s10 F y h = k10 at *
  generalize RK.s9 F y h = k9 at *
  generalize RK.s8 F y h = k8 at *
  generalize RK.s7 F y h = k7 at *
  generalize RK.s6 F y h = k6 at *
  generalize RK.s5 F y h = k5 at *
  generalize RK.s4 F y h = k4 at *
  generalize RK.s3 F y h = k3 at *
  generalize RK.s2 F y h = k2 at *
  generalize RK.s1 F y h = k1 at *
  simp only [Integrators.RK8, hf _, bind, Except.bind, scale_mvOf hA hS, plus_mvOf hA hS, c1, c3, c4, c5, c6, c7, Int.cast_neg, Int.cast_ofNat,
    e1, e2, e3, e4, e5, e6, e7, e8, e9, e10, ef]

end
end Verif
