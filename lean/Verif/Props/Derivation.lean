import Verif.Proofs.Momentum2
import Verif.Props.Physics
/-! # The commutator with a bivector is a derivation (C95) -/
namespace Verif.Props
open Model Spec Model.Factory

variable {A : Alg} {R : Type} [Field R]

/-- The rule of Leibniz for `b.commutator` and the product `f`. -/
def Leibniz (A : Alg) (f : MV R → MV R → Option (MV R)) (b x y : MV R) : Prop :=
  Agree A (do b.commutator A (← f x y)) (do (← f (← b.commutator A x) y).add A (.mv (← f x (← b.commutator A y))))

theorem leibniz_of (hA : WfAlg A) {f : MV R → MV R → Option (MV R)} {F : Cl A R → Cl A R → Cl A R}
    (hf : ∀ {x y : MV R}, WfMV A x → WfMV A y → Gives A (f x y) (F (val A x) (val A y))) {b x y : MV R} (hb : WfMV A b) (hx : WfMV A x) (hy : WfMV A y)
    (h : comm A R (val A b) (F (val A x) (val A y)) = F (comm A R (val A b) (val A x)) (val A y) + F (val A x) (comm A R (val A b) (val A y))) :
    Leibniz A f b x y := by
  refine Agree.of ((hf hx hy).bind fun z hz ez => ez ▸ commutator_gives hA hb hz) (w := F (comm A R (val A b) (val A x)) (val A y) +
    F (val A x) (comm A R (val A b) (val A y))) ?_ h
  refine (commutator_gives hA hb hx).bind fun u hu eu => (hf hu hy).bind fun p hp ep => (commutator_gives hA hb hy).bind fun v hv ev =>
    (hf hx hv).bind fun q hq eq => ?_
  obtain ⟨_, _, h, _⟩ := C44_sum hA hp hq
  rw [ep, eq, eu, ev] at h
  exact h.gives

/-! ## C95 -/

/-- C95: the commutator with any multivector is a derivation of the geometric product. -/
theorem C95_product (hA : WfAlg A) (h2 : (2 : R) ≠ 0) {b x y : MV R} (hb : WfMV A b) (hx : WfMV A x) (hy : WfMV A y) :
    Leibniz A (fun x y => x.product A y) b x y :=
  leibniz_of hA (fun hx hy => product_gives hA hx hy) hb hx hy (comm_mul hA (halving h2) _ _ _)

/-- C95: the commutator with a bivector is a derivation of the outer and the inner product and of the contractions. -/
theorem C95_graded (hA : WfAlg A) (h2 : (2 : R) ≠ 0) {b x y : MV R} (hb : WfMV A b) (hb2 : Homogeneous 2 b) (hx : WfMV A x) (hy : WfMV A y) :
    Leibniz A (fun x y => x.wedge A y) b x y ∧ Leibniz A (fun x y => x.inner A y) b x y ∧ Leibniz A (fun x y => x.scalarProduct A y) b x y ∧
    Leibniz A (fun x y => x.leftContract A y) b x y ∧ Leibniz A (fun x y => x.rightContract A y) b x y := by
  have hg := gradePart_val hb hb2
  refine ⟨leibniz_of hA (fun hx hy => (C30_graded hA hx hy).2.2.2.2.1) hb hx hy (comm_graded hA (halving h2) _ hg _ _),
    leibniz_of hA (fun hx hy => (C30_graded hA hx hy).1) hb hx hy (comm_graded hA (halving h2) _ hg _ _),
    leibniz_of hA (fun hx hy => (C30_graded hA hx hy).2.1) hb hx hy (comm_graded hA (halving h2) _ hg _ _),
    leibniz_of hA (fun hx hy => (C30_graded hA hx hy).2.2.1) hb hx hy (comm_graded hA (halving h2) _ hg _ _),
    leibniz_of hA (fun hx hy => (C30_graded hA hx hy).2.2.2.1) hb hx hy (comm_graded hA (halving h2) _ hg _ _)⟩

/-- C95: the regressive product of complementary grades, a scalar, does not change along a bivector: the commutator is skew for it. -/
theorem C95_regressive (hA : WfAlg A) (h2 : (2 : R) ≠ 0) {b x y : MV R} {j k : Nat} (hjk : j + k = A.n) (hb : WfMV A b) (hb2 : Homogeneous 2 b)
    (hx : WfMV A x) (hj : Homogeneous j x) (hy : WfMV A y) (hk : Homogeneous k y) :
    Agree A (do (← b.commutator A x).regressive A y) (do (← x.regressive A (← b.commutator A y)).neg) := by
  have h : Gives A (do (← x.regressive A (← b.commutator A y)).neg)
      (- rhInv A R (wedgeMap A R (rhMap A R (val A x)) (rhMap A R (comm A R (val A b) (val A y))))) := by
    refine (commutator_gives hA hb hy).bind fun v hv ev => (regressive_gives hA hx hv).bind fun q hq eq => ?_
    rw [← ev, ← eq]
    exact (C44_neg hq).gives
  refine Agree.of ((commutator_gives hA hb hx).bind fun u hu eu => eu ▸ regressive_gives hA hu hy) h ?_
  rw [← meet_eq, ← meet_eq, eq_neg_iff_add_eq_zero]
  exact meet_invariant hA (halving h2) hjk (gradePart_val hb hb2) (gradePart_val hx hj) (gradePart_val hy hk)

/-- The rate `3 e₁₂ + 5 e₂₃ + 2 e₁₃` of the plane-based algebra of the plane. -/
def exRate : MV ℚ := ⟨⟨[3, 5, 6]⟩, [3, 2, 5]⟩
def exLine : MV ℚ := ⟨⟨[1, 2, 4]⟩, [1, 4, -2]⟩
def exPoint : MV ℚ := ⟨⟨[3, 5, 6]⟩, [1, 7, -3]⟩

example : WfMV pga2s exRate ∧ Homogeneous 2 exRate ∧ WfMV pga2s exLine ∧ Homogeneous 1 exLine ∧ WfMV pga2s exPoint ∧ Homogeneous 2 exPoint ∧
    1 + 2 = pga2s.n := by
  have h : WfSub pga2s ⟨[3, 5, 6]⟩ := wfSub_of_B (by decide +kernel)
  exact ⟨⟨h, rfl⟩, by unfold Homogeneous; decide +kernel, ⟨wfSub_of_B (by decide +kernel), rfl⟩, by unfold Homogeneous; decide +kernel, ⟨h, rfl⟩, by unfold Homogeneous; decide +kernel, rfl⟩

example : (do exRate.commutator pga2s (← exLine.wedge pga2s exPoint)) = some ⟨⟨[]⟩, []⟩ ∧
    (do exRate.commutator pga2s (← exLine.inner pga2s exPoint)) = some ⟨⟨[1, 2, 4]⟩, [3, 12, 3]⟩ ∧
    (do (← exRate.commutator pga2s exLine).regressive pga2s exPoint) = some ⟨⟨[0]⟩, [-37]⟩ := by
  decide +kernel

end Verif.Props
