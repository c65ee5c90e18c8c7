import Verif.Props.Products
/-! # Properties C36 – C38: sandwiches and products of a multivector with itself -/
namespace Verif.Props
open Model Spec

variable {A : Alg} {R : Type} [CommRing R]

/-! ## C36 -/

theorem sandwich_gives (hA : WfAlg A) {r v : MV R} (hr : WfMV A r) (hv : WfMV A v) :
    Gives A (r.sandwich A v) (gradesOf A R v.sub (val A r * val A v * CliffordAlgebra.reverse (val A r))) :=
  call_gives3 (sandwich_sem hA hr.sub hv.sub) hr hv hr (by intro i hi j hj; simp at hi hj; rcases hi with rfl | rfl <;> rcases hj with rfl | rfl <;> rfl)

theorem reverseSandwich_gives (hA : WfAlg A) {r v : MV R} (hr : WfMV A r) (hv : WfMV A v) :
    Gives A (r.reverseSandwich A v) (gradesOf A R v.sub (CliffordAlgebra.reverse (val A r) * val A v * val A r)) :=
  call_gives3 (reverseSandwich_sem hA hr.sub hv.sub) hr hv hr (by intro i hi j hj; simp at hi hj; rcases hi with rfl | rfl <;> rcases hj with rfl | rfl <;> rfl)

theorem gradePart_gradesOf (V : SubSpace) (k : Nat) (x : Cl A R) :
    gradePart A R k (gradesOf A R V x) = if ∃ c ∈ V.blades, popcount c = k then gradePart A R k x else 0 := by
  rw [gradePart_eq_proj, gradesOf, proj_proj]
  split_ifs with h
  · apply proj_congr
    intro b _
    exact ⟨fun h => h.1, fun hb => ⟨hb, hb ▸ h⟩⟩
  · have : ∀ b < 2 ^ A.n, (popcount b = k ∧ ∃ c ∈ V.blades, popcount c = popcount b) ↔ False := by
      intro b _
      simp only [iff_false, not_and]
      intro hb h'
      exact h (hb ▸ h')
    rw [proj_congr this]
    apply ext_coef
    intro b _
    rw [coef_proj, if_neg id, map_zero]

/-- C36: `full_sandwich(r, v) = r * v * ~r`. -/
theorem C36_full (hA : WfAlg A) {r v : MV R} (hr : WfMV A r) (hv : WfMV A v) :
    Gives A (r.fullSandwich A v) (val A r * val A v * CliffordAlgebra.reverse (val A r)) :=
  call_gives3 (fullSandwich_sem hA hr.sub hv.sub) hr hv hr (by intro i hi j hj; simp at hi hj; rcases hi with rfl | rfl <;> rcases hj with rfl | rfl <;> rfl)

/-- C36: `sandwich` (`r >> v`) keeps from `r * v * ~r` exactly the grades present in the subspace of `v`, and stores no
other grades; `reverse_sandwich` (`r << v`) does the same with `~r * v * r`. -/
theorem C36_grades (hA : WfAlg A) {r v : MV R} (hr : WfMV A r) (hv : WfMV A v) :
    (∃ z, r.sandwich A v = some z ∧ WfMV A z ∧
      (∀ k, gradePart A R k (val A z) = if ∃ c ∈ v.sub.blades, popcount c = k
        then gradePart A R k (val A r * val A v * CliffordAlgebra.reverse (val A r)) else 0) ∧
      (∀ b ∈ z.sub.blades, ∃ c ∈ v.sub.blades, popcount c = popcount b)) ∧
    (∃ z, r.reverseSandwich A v = some z ∧ WfMV A z ∧
      (∀ k, gradePart A R k (val A z) = if ∃ c ∈ v.sub.blades, popcount c = k
        then gradePart A R k (CliffordAlgebra.reverse (val A r) * val A v * val A r) else 0) ∧
      (∀ b ∈ z.sub.blades, ∃ c ∈ v.sub.blades, popcount c = popcount b)) := by
  constructor
  · obtain ⟨z, h1, h2, h3⟩ := sandwich_gives hA hr hv
    refine ⟨z, h1, h2, fun k => by rw [h3, gradePart_gradesOf], fun b hb => ?_⟩
    obtain ⟨t, ht, _⟩ := sandwich_sem hA hr.sub hv.sub
    obtain ⟨s, hs, hs2, _⟩ := fullSandwich_sem hA hr.sub hv.sub
    rw [MV.sandwich, ht] at h1
    rw [call_sub h1] at hb
    exact sandwich_grades hA hv.sub ht hs hs2 hb
  · obtain ⟨z, h1, h2, h3⟩ := reverseSandwich_gives hA hr hv
    refine ⟨z, h1, h2, fun k => by rw [h3, gradePart_gradesOf], fun b hb => ?_⟩
    obtain ⟨t, ht, _⟩ := reverseSandwich_sem hA hr.sub hv.sub
    obtain ⟨q, q1, q2, q3, q4⟩ := reverse_un hA (argSem_sub hr.sub)
    have ha := Sem.arg (op := q) (ins := [r.sub]) (C := Cond.triv A) (F := fun R _ ds => CliffordAlgebra.reverse (ds.headD 0)) ⟨q, rfl, q2, q3, q4⟩
    obtain ⟨s, hs, hs2, _⟩ := fullSandwich_arg hA (L := fun _ _ x => CliffordAlgebra.reverse x) ha hv.sub
    rw [MV.reverseSandwich, ht] at h1
    rw [call_sub h1] at hb
    rw [Factory.reverseSandwich, q1, Option.bind_eq_bind, Option.bind_some] at ht
    exact sandwich_grades hA hv.sub ht hs hs2 hb

/-- C36: for a product `r` of vectors, nothing is lost: `sandwich` agrees with `full_sandwich`, and sandwiching a
homogeneous `v` gives a homogeneous result of the same grade. -/
theorem C36_versor (hA : WfAlg A) {r v : MV R} (hr : WfMV A r) (hv : WfMV A v) (vs : List (Fin A.n → R))
    (h : val A r = (vs.map (CliffordAlgebra.ι (Q A R))).prod) :
    Agree A (r.sandwich A v) (r.fullSandwich A v) ∧
    ∀ k, Homogeneous k v → ∀ z, r.fullSandwich A v = some z → gradePart A R k (val A z) = val A z := by
  constructor
  · refine Agree.of (sandwich_gives hA hr hv) (C36_full hA hr hv) ?_
    rw [h]
    exact gradesOf_versor hA vs hv.sub v.vals
  · intro k hk z hz
    rw [((C36_full hA hr hv).val hz).2, h]
    exact versor_sandwich hA vs k (gradePart_val hv hk)

example : WfMV sta (⟨⟨[0, 3]⟩, [2, 1]⟩ : MV ℤ) ∧ WfMV sta exV ∧
    (⟨⟨[0, 3]⟩, [2, 1]⟩ : MV ℤ).sandwich sta exV = some ⟨⟨[1, 2, 4, 8]⟩, [11, -7, -6, 12]⟩ :=
  ⟨⟨wfSub_of_B (by decide +kernel), rfl⟩, ⟨wfSub_of_B (by decide +kernel), rfl⟩, by decide +kernel⟩

/-! ## C37 -/

/-- C37: sandwiching a `k`-vector subspace by an even (`p = 0`) or odd (`p = 1`) subspace only produces grades congruent
to `k` modulo four, also before grade selection. -/
theorem C37_mod4 (hA : WfAlg A) {r v : MV R} (hr : WfMV A r) (hv : WfMV A v) {k p : Nat}
    (hp : ∀ a ∈ r.sub.blades, popcount a % 2 = p) (hk : Homogeneous k v) :
    ∃ z, r.fullSandwich A v = some z ∧ WfMV A z ∧ ∀ b ∈ z.sub.blades, popcount b % 4 = k % 4 := by
  obtain ⟨z, h1, h2, _⟩ := C36_full hA hr hv
  refine ⟨z, h1, h2, fun b hb => ?_⟩
  obtain ⟨s, hs, _⟩ := fullSandwich_sem hA hr.sub hv.sub
  rw [MV.fullSandwich, hs] at h1
  rw [call_sub h1] at hb
  exact fullSandwich_mod4 hA hr.sub hv.sub hp hk hs hb

/-- Without the parity condition the claim fails. -/
example : (⟨⟨[0, 1]⟩, [2, 1]⟩ : MV ℤ).fullSandwich sta exV ≠ none ∧
    ((⟨⟨[0, 1]⟩, [2, 1]⟩ : MV ℤ).fullSandwich sta exV).map (·.sub.blades.map popcount) = some [0, 1, 1, 1, 1] := by decide +kernel
example : WfMV pga3 exE ∧ (∀ a ∈ exE.sub.blades, popcount a % 2 = 0) ∧ WfMV pga3 exV ∧ Homogeneous 1 exV :=
  ⟨wf_exE, by decide +kernel, wf_exV, by unfold Homogeneous; decide +kernel⟩

/-! ## C38 -/

/-- C38: the products of a multivector with its involutions. -/
theorem C38_values (hA : WfAlg A) {x : MV R} (hx : WfMV A x) :
    Gives A (x.squared A) (val A x * val A x) ∧
    Gives A (x.symmetricReverse A) (val A x * CliffordAlgebra.reverse (val A x)) ∧
    Gives A (x.symmetricInvolute A) (val A x * CliffordAlgebra.involute (val A x)) ∧
    Gives A (x.symmetricConjugate A) (val A x * CliffordAlgebra.involute (CliffordAlgebra.reverse (val A x))) ∧
    Gives A (x.symmetricScalarNegation A) (val A x * (2 • gradePart A R 0 (val A x) - val A x)) ∧
    Gives A (x.symmetricPseudoscalarNegation A)
      (val A x * (2 • (gradePart A R 0 (val A x) + gradePart A R A.n (val A x)) - val A x)) := by
  have hC : Cond.eqOn A [0, 1] R [val A x, val A x] := by
    intro i hi j hj; simp at hi hj; rcases hi with rfl | rfl <;> rcases hj with rfl | rfl <;> rfl
  refine ⟨call_gives2 (squared_sem hA hx.sub) hx hx hC, call_gives2 (symmetricReverse_sem hA hx.sub) hx hx hC,
    call_gives2 (symmetricInvolute_sem hA hx.sub) hx hx hC, call_gives2 (symmetricConjugate_sem hA hx.sub) hx hx hC,
    call_gives2 (symmetricScalarNegation_sem hA hx.sub) hx hx hC,
    (call_gives2 (symmetricPseudoscalarNegation_sem hA hx.sub) hx hx hC).congr ?_⟩
  simp only [List.headD_cons]
  rw [if_neg (by have := hA.pos; omega)]

/-- C38: they agree with multiplying by the separately computed involution. -/
theorem C38_agree (hA : WfAlg A) {x : MV R} (hx : WfMV A x) :
    Agree A (x.squared A) (x.product A x) ∧
    Agree A (x.symmetricReverse A) (do x.product A (← x.reverse A)) ∧
    Agree A (x.symmetricInvolute A) (do x.product A (← x.involute A)) ∧
    Agree A (x.symmetricConjugate A) (do x.product A (← x.conjugate A)) ∧
    Agree A (x.symmetricScalarNegation A) (do x.product A (← x.scalarNegation A)) ∧
    Agree A (x.symmetricPseudoscalarNegation A) (do x.product A (← x.pseudoscalarNegation A)) := by
  have hC : Cond.eqOn A [0, 1] R [val A x, val A x] := by
    intro i hi j hj; simp at hi hj; rcases hi with rfl | rfl <;> rcases hj with rfl | rfl <;> rfl
  obtain ⟨h1, h2, h3, h4, h5, h6⟩ := C38_values hA hx
  have hp : ∀ {f : Arg Int → Option (Operator Int)} {L : ∀ (R : Type) [CommRing R], Cl A R → Cl A R} (_ : UnSem A f L),
      Gives A (do x.product A (← MV.call (f (.sub x.sub)) [x])) (val A x * L R (val A x)) := by
    intro f L h
    exact (un_gives h hx).bind fun z hz e => e ▸ product_gives hA hx hz
  refine ⟨Agree.of h1 (product_gives hA hx hx) rfl, Agree.of h2 (hp (reverse_un hA)) rfl, Agree.of h3 (hp (involute_un hA)) rfl,
    Agree.of h4 (hp (conjugate_un hA)) rfl, Agree.of h5 (hp (scalarNegation_un hA)) rfl,
    Agree.of (call_gives2 (symmetricPseudoscalarNegation_sem hA hx.sub) hx hx hC) (hp (pseudoscalarNegation_un hA)) rfl⟩

/-- C38: `x * ~x` is stored without the grades 2 and 3 modulo 4. -/
theorem C38_grades (hA : WfAlg A) {x : MV R} (hx : WfMV A x) :
    ∃ z, x.symmetricReverse A = some z ∧ WfMV A z ∧ ∀ b ∈ z.sub.blades, popcount b % 4 = 0 ∨ popcount b % 4 = 1 := by
  obtain ⟨_, ⟨z, h1, h2, _⟩, _⟩ := C38_values hA hx
  refine ⟨z, h1, h2, fun b hb => ?_⟩
  obtain ⟨s, hs, _⟩ := symmetricReverse_sem hA hx.sub
  rw [MV.symmetricReverse, hs] at h1
  rw [call_sub h1] at hb
  exact symmetricReverse_output hA hx.sub hs hb

example : exX.symmetricReverse pga3 = some ⟨⟨[0, 1, 2, 4, 15]⟩, [30, -6, -4, 10, 28]⟩ ∧ WfMV pga3 exX := ⟨by decide +kernel, wf_exX⟩

end Verif.Props
