import Verif.Proofs.Values
import Verif.Props.Operator
/-! # Properties C04, C17 (multivectors), C25, C32, C44, C45: unary operations, selection and sums -/
namespace Verif.Props
open Model Spec

variable {A : Alg} {R : Type} [CommRing R]

/-- Example multivectors over `pga3` with integer coefficients. -/
def exX : MV ℤ := ⟨⟨[0, 2, 3, 6, 15]⟩, [2, -1, 3, 5, 7]⟩
/-- Example vector. -/
def exV : MV ℤ := ⟨⟨[1, 2, 4, 8]⟩, [3, 1, -2, 4]⟩
/-- Example even multivector. -/
def exE : MV ℤ := ⟨⟨[0, 3, 6, 10]⟩, [1, 2, 3, -4]⟩
theorem wf_exX : WfMV pga3 exX := ⟨wfSub_of_B (by decide +kernel), rfl⟩
theorem wf_exV : WfMV pga3 exV := ⟨wfSub_of_B (by decide +kernel), rfl⟩
theorem wf_exE : WfMV pga3 exE := ⟨wfSub_of_B (by decide +kernel), rfl⟩

/-! ## C04 -/

/-- C04: `reverse`, `involute` and `conjugate` keep the subspace and represent the Clifford operations of the same
name. -/
theorem C04_values (hA : WfAlg A) {x : MV R} (hx : WfMV A x) :
    GivesIn A (x.reverse A) x.sub (CliffordAlgebra.reverse (val A x)) ∧
    GivesIn A (x.involute A) x.sub (CliffordAlgebra.involute (val A x)) ∧
    GivesIn A (x.conjugate A) x.sub (CliffordAlgebra.involute (CliffordAlgebra.reverse (val A x))) :=
  ⟨GivesIn.of_call (un_gives (reverse_un hA) hx) fun _ h => reverse_output (v := .sub x.sub) hx.sub h,
   GivesIn.of_call (un_gives (involute_un hA) hx) fun _ h => involute_output (v := .sub x.sub) hx.sub h,
   GivesIn.of_call (un_gives (conjugate_un hA) hx) fun _ h => conjugate_output hA (argSem_sub hx.sub) h⟩

/-- C04: each of them is its own inverse, on the nose. -/
theorem C04_involutive (hA : WfAlg A) {x : MV R} (hx : WfMV A x) :
    (x.reverse A).bind (·.reverse A) = some x ∧ (x.involute A).bind (·.involute A) = some x ∧
    (x.conjugate A).bind (·.conjugate A) = some x := by
  obtain ⟨⟨a, a1, a2, a3, a4⟩, ⟨b, b1, b2, b3, b4⟩, ⟨c, c1, c2, c3, c4⟩⟩ := C04_values hA hx
  rw [a1, b1, c1]
  refine ⟨?_, ?_, ?_⟩
  · have := (C04_values hA a3).1
    rw [a4, a2, CliffordAlgebra.reverse_reverse] at this
    exact this.eq hx
  · have := (C04_values hA b3).2.1
    rw [b4, b2, CliffordAlgebra.involute_involute] at this
    exact this.eq hx
  · have := (C04_values hA c3).2.2
    rw [c4, c2, CliffordAlgebra.reverse_involute, CliffordAlgebra.involute_involute, CliffordAlgebra.reverse_reverse] at this
    exact this.eq hx

/-- C04: reversal and conjugation reverse products, involution preserves them. -/
theorem C04_products (hA : WfAlg A) {x y : MV R} (hx : WfMV A x) (hy : WfMV A y) :
    Agree A (do (← x.product A y).reverse A) (do (← y.reverse A).product A (← x.reverse A)) ∧
    Agree A (do (← x.product A y).involute A) (do (← x.involute A).product A (← y.involute A)) ∧
    Agree A (do (← x.product A y).conjugate A) (do (← y.conjugate A).product A (← x.conjugate A)) := by
  have key : ∀ (f : MV R → Option (MV R)) (L : Cl A R → Cl A R), (∀ z : MV R, WfMV A z → Gives A (f z) (L (val A z))) →
      Gives A (do f (← x.product A y)) (L (val A x * val A y)) := by
    intro f L hf
    exact (product_gives hA hx hy).bind fun z hz e => e ▸ hf z hz
  have key2 : ∀ (f : MV R → Option (MV R)) (L : Cl A R → Cl A R), (∀ z : MV R, WfMV A z → Gives A (f z) (L (val A z))) →
      ∀ u v : MV R, WfMV A u → WfMV A v → Gives A (do (← f u).product A (← f v)) (L (val A u) * L (val A v)) := by
    intro f L hf u v hu hv
    refine (hf u hu).bind fun a ha ea => (hf v hv).bind fun b hb eb => ?_
    rw [← ea, ← eb]
    exact product_gives hA ha hb
  have h := fun (z : MV R) (hz : WfMV A z) => C04_values hA hz
  refine ⟨Agree.of (key _ _ fun z hz => (h z hz).1.gives) (key2 _ _ (fun z hz => (h z hz).1.gives) y x hy hx) ?_,
    Agree.of (key _ _ fun z hz => (h z hz).2.1.gives) (key2 _ _ (fun z hz => (h z hz).2.1.gives) x y hx hy) ?_,
    Agree.of (key _ (fun v => CliffordAlgebra.involute (CliffordAlgebra.reverse v)) fun z hz => (h z hz).2.2.gives)
      (key2 _ (fun v => CliffordAlgebra.involute (CliffordAlgebra.reverse v)) (fun z hz => (h z hz).2.2.gives) y x hy hx) ?_⟩
  · rw [CliffordAlgebra.reverse.map_mul]
  · rw [map_mul]
  · simp only [CliffordAlgebra.reverse.map_mul, map_mul]

example : WfAlg pga3 ∧ WfMV pga3 exX ∧ WfMV pga3 exV := ⟨wf_pga3, wf_exX, wf_exV⟩

/-! ## C25 -/

/-- C25: `select_subspace` has the requested subspace, and the coefficients of `x` there. -/
theorem C25_select {x : MV R} (hx : WfMV A x) {S : SubSpace} (hS : WfSub A S) :
    ∃ z, x.selectSubspace A S = some z ∧ z.sub = S ∧ WfMV A z ∧ ∀ b, coeff z b = if b ∈ S.blades then coeff x b else 0 := by
  obtain ⟨z, h1, h2, h3, h4⟩ := selectSubspace_givesIn hx hS
  refine ⟨z, h1, h2, h3, fun b => ?_⟩
  rw [coeff_eq h3, h4, coef_proj, coeff_eq hx]

/-- C25: `restrict_subspace` has the blades common to both subspaces, and the coefficients of `x` there. -/
theorem C25_restrict (hA : WfAlg A) {x : MV R} (hx : WfMV A x) {S : SubSpace} (hS : WfSub A S) :
    ∃ z, x.restrictSubspace A S = some z ∧ IsSpace A z.sub (fun b => b ∈ S.blades ∧ b ∈ x.sub.blades) ∧ WfMV A z ∧
      ∀ b, coeff z b = if b ∈ S.blades then coeff x b else 0 := by
  obtain ⟨T, t1, z, h1, h2, h3, h4⟩ := restrictSubspace_gives hA hx hS
  obtain ⟨T', t1', t2⟩ := intersection_spec hA hS (T := x.sub)
  cases t1.symm.trans t1'
  refine ⟨z, h1, h2 ▸ t2, h3, fun b => ?_⟩
  rw [coeff_eq h3, h4, coef_proj, coeff_eq hx]

/-- C25: selecting grades, by possibly negative index, keeps the parts of these grades. -/
theorem C25_grades (hA : WfAlg A) {x : MV R} (hx : WfMV A x) {gs : List Int} {ks : List Nat} (h : List.Forall₂ (IsGrade A.n) gs ks)
    (hne : ks ≠ []) (hnd : ks.Nodup) :
    (∃ z, x.selectGrades A gs = some z ∧ IsSpace A z.sub (fun b => popcount b ∈ ks) ∧ WfMV A z ∧
      ∀ b, coeff z b = if popcount b ∈ ks then coeff x b else 0) ∧
    (∃ z, x.restrictGrades A gs = some z ∧ IsSpace A z.sub (fun b => popcount b ∈ ks ∧ b ∈ x.sub.blades) ∧ WfMV A z ∧
      ∀ b, coeff z b = if popcount b ∈ ks then coeff x b else 0) := by
  obtain ⟨S, h1, h2, h3⟩ := (C14_from_grades hA h).2 hne hnd
  rw [MV.selectGrades, MV.restrictGrades, h1]
  have e : ∀ b, (if b ∈ S.blades then coeff x b else 0) = if popcount b ∈ ks then coeff x b else 0 := by
    intro b
    by_cases hb : b < 2 ^ A.n
    · simp [h3, hb]
    · have : b ∉ x.sub.blades := fun h => hb (hx.sub.lt b h)
      simp [coeff_notMem this]
  constructor
  · obtain ⟨z, z1, z2, z3, z4⟩ := C25_select hx h2
    exact ⟨z, z1, z2 ▸ ⟨h2, h3⟩, z3, fun b => (z4 b).trans (e b)⟩
  · obtain ⟨z, z1, z2, z3, z4⟩ := C25_restrict hA hx h2
    refine ⟨z, z1, ⟨z2.1, fun b => ?_⟩, z3, fun b => (z4 b).trans (e b)⟩
    rw [z2.2]
    have := h3 b
    tauto

example : exX.selectGrades pga3 [2, -1] = some ⟨⟨[3, 5, 6, 9, 10, 12, 15]⟩, [3, 0, 5, 0, 0, 0, 7]⟩ ∧
    exX.restrictGrades pga3 [2, -1] = some ⟨⟨[3, 6, 15]⟩, [3, 5, 7]⟩ ∧
    List.Forall₂ (IsGrade pga3.n) [2, -1] [2, 4] :=
  ⟨by decide +kernel, by decide +kernel,
    .cons ⟨by decide, Or.inl rfl⟩ (.cons ⟨by decide, Or.inr rfl⟩ .nil)⟩

/-! ## C44 -/

/-- C44: sums and differences of multivectors of any two subspaces; the result lives in the union. -/
theorem C44_sum (hA : WfAlg A) {x y : MV R} (hx : WfMV A x) (hy : WfMV A y) :
    ∃ U, x.sub.union A y.sub = some U ∧ GivesIn A (x.add A (.mv y)) U (val A x + val A y) ∧
      GivesIn A (x.sub' A (.mv y)) U (val A x - val A y) ∧ Gives A (x.rsub A (.mv y)) (val A y - val A x) := by
  obtain ⟨U, u1, u2⟩ := combine_gives hA hx hy 1
  obtain ⟨U', u1', u3⟩ := combine_gives hA hx hy (-1)
  cases u1.symm.trans u1'
  obtain ⟨_, _, u4⟩ := combine_gives hA hy hx (-1)
  rw [one_smul] at u2
  rw [neg_one_smul, ← sub_eq_add_neg] at u3 u4
  exact ⟨U, u1, u2, u3, u4.gives⟩

/-- C44: mixed expressions with plain numbers. -/
theorem C44_numbers (hA : WfAlg A) {x : MV R} (hx : WfMV A x) (c : R) :
    Gives A (x.add A (.num c)) (val A x + algebraMap R _ c) ∧ Gives A (x.sub' A (.num c)) (val A x - algebraMap R _ c) ∧
    Gives A (x.rsub A (.num c)) (algebraMap R _ c - val A x) ∧ Gives A (x.mul A (.num c)) (c • val A x) ∧
    Gives A (x.rmul A (.num c)) (c • val A x) := by
  obtain ⟨u, u1, u2, u3⟩ := upcast_gives hA c
  simp only [MV.add, MV.sub', MV.rsub, MV.mul, MV.rmul, u1, Option.bind_eq_bind, Option.bind_some]
  obtain ⟨_, _, h1⟩ := combine_gives hA hx u2 1
  obtain ⟨_, _, h2⟩ := combine_gives hA hx u2 (-1)
  obtain ⟨_, _, h3⟩ := combine_gives hA u2 hx (-1)
  rw [one_smul, u3] at h1
  rw [neg_one_smul, ← sub_eq_add_neg, u3] at h2 h3
  refine ⟨h1.gives, h2.gives, h3.gives, (product_gives hA hx u2).congr ?_, (product_gives hA u2 hx).congr ?_⟩
  · rw [u3, ← Algebra.commutes, Algebra.smul_def]
  · rw [u3, Algebra.smul_def]

/-- C44: negation. -/
theorem C44_neg {x : MV R} (hx : WfMV A x) : GivesIn A x.neg x.sub (- val A x) := by
  have hl : (x.vals.map (- ·)).length = x.sub.blades.length := by rw [List.length_map, hx.len]
  rw [MV.neg, MV.copy, MV.construct, if_pos hl]
  exact ⟨_, rfl, rfl, ⟨hx.sub, hl⟩, denote_neg _⟩

example : exX.add pga3 (.mv exV) = some ⟨⟨[0, 1, 2, 4, 8, 3, 6, 15]⟩, [2, 3, 0, -2, 4, 3, 5, 7]⟩ ∧
    exV.rsub pga3 (.num 5) = some ⟨⟨[0, 1, 2, 4, 8]⟩, [5, -3, -1, 2, -4]⟩ := by decide +kernel

/-! ## C17 -/

/-- C17 (multivectors): the degenerate and nondegenerate parts have the coefficients of `x` at the blades with square
zero and nonzero, and add up to `x`, on the nose. -/
theorem C17_multivector (hA : WfAlg A) {x : MV R} (hx : WfMV A x) :
    (∃ d n, x.degenerate A = some d ∧ x.nondegenerate A = some n ∧ WfMV A d ∧ WfMV A n ∧
      (∀ b, coeff d b = if (A.product b b).2 = 0 then coeff x b else 0) ∧
      (∀ b, coeff n b = if (A.product b b).2 ≠ 0 then coeff x b else 0) ∧ d.add A (.mv n) = some x) := by
  obtain ⟨⟨D, d1, d2, d3⟩, ⟨N, n1, n2, n3⟩⟩ := C17_split hA hx.sub
  obtain ⟨d, e1, e2, e3, e4⟩ := C25_select hx d2
  obtain ⟨n, m1, m2, m3, m4⟩ := C25_select hx n2
  have hd : x.degenerate A = some d := by
    rw [← e1, MV.degenerate, Factory.degenerate, Arg.subspace, d1]; rfl
  have hn : x.nondegenerate A = some n := by
    rw [← m1, MV.nondegenerate, Factory.nondegenerate, Arg.subspace, n1]; rfl
  have cd : ∀ b, coeff d b = if (A.product b b).2 = 0 then coeff x b else 0 := by
    intro b
    rw [e4]; simp only [d3]
    by_cases hb : b ∈ x.sub.blades
    · simp [hb, hx.sub.lt b hb]
    · simp [coeff_notMem hb]
  have cn : ∀ b, coeff n b = if (A.product b b).2 ≠ 0 then coeff x b else 0 := by
    intro b
    rw [m4]; simp only [n3]
    by_cases hb : b ∈ x.sub.blades
    · simp [hb, hx.sub.lt b hb]
    · simp [coeff_notMem hb]
  refine ⟨d, n, hd, hn, e3, m3, cd, cn, ?_⟩
  obtain ⟨U, u1, u2, _⟩ := C44_sum hA e3 m3
  obtain ⟨U', v1, v2, v3⟩ := union_spec hA e3.sub m3.sub
  cases u1.symm.trans v1
  have hU : U = x.sub := WfSub.ext v2 hx.sub fun b => by
    rw [v3, e2, m2]; simp only [d3, n3]
    by_cases hb : b ∈ x.sub.blades
    · have := hx.sub.lt b hb
      by_cases h : (A.product b b).2 = 0 <;> simp [hb, h, this]
    · simp [hb]
  rw [hU] at u2
  refine GivesIn.eq hx ?_
  obtain ⟨z, z1, z2, z3, z4⟩ := u2
  refine ⟨z, z1, z2, z3, z4.trans ?_⟩
  apply ext_coef
  intro b _
  rw [map_add, ← coeff_eq e3, ← coeff_eq m3, ← coeff_eq hx, cd, cn]
  by_cases h : (A.product b b).2 = 0 <;> simp [h]

example : exX.degenerate pga3 = some ⟨⟨[3, 15]⟩, [3, 7]⟩ ∧ exX.nondegenerate pga3 = some ⟨⟨[0, 2, 6]⟩, [2, -1, 5]⟩ := by
  decide +kernel

/-! ## C32 -/

/-- The multivector of a single basis blade. -/
def bladeMV (R : Type) [CommRing R] (b : Nat) : MV R := ⟨⟨[b]⟩, [1]⟩

theorem wf_bladeMV {b : Nat} (hb : b < 2 ^ A.n) : WfMV A (bladeMV R b) := ⟨⟨by simpa [bladeMV] using hb, by simp [bladeMV]⟩, rfl⟩
theorem val_bladeMV (b : Nat) : val A (bladeMV R b) = blade A R b := by simp [val, denote, bladeMV]

/-- Number of negative basis vectors in a blade. -/
def negCount (A : Alg) (b : Nat) : Nat := ((Finset.range A.n).filter fun i => b.testBit i = true ∧ A.desc.sig.getD i 0 = -1).card

theorem negCount_eq (hA : WfAlg A) (b : Nat) : pc A.n (b &&& A.negatives) = negCount A b := by
  rw [pc, negCount, Finset.card_filter]
  apply Finset.sum_congr rfl
  intro i hi
  rw [Nat.testBit_and, negatives_testBit hA i (Finset.mem_range.1 hi)]
  generalize A.desc.sig.getD i 0 = s
  cases b.testBit i <;> by_cases h : s = -1 <;> simp [h]

/-- C32: `dual` and `dual_inverse` are inverse to each other, on the nose and in every signature, and take a multivector to
the complementary subspace. -/
theorem C32_inverse (hA : WfAlg A) {x : MV R} (hx : WfMV A x) :
    (x.dual A).bind (·.dualInverse A) = some x ∧ (x.dualInverse A).bind (·.dual A) = some x ∧
    (∃ z T, x.dual A = some z ∧ x.sub.complement A = some T ∧ z.sub = T) := by
  obtain ⟨T, t1, t2, t3⟩ := complement_spec hA hx.sub
  have d : ∀ {y : MV R} {T}, WfMV A y → y.sub.complement A = some T → GivesIn A (y.dual A) T (rhMap A R (val A y)) := by
    intro y T hy hT
    refine GivesIn.of_call (un_gives (rightHodge_un hA) hy) fun op h => ?_
    have := rightHodge_output hA hy.sub h
    rw [hT] at this
    exact (Option.some_inj.1 this).symm
  have i : ∀ {y : MV R} {T}, WfMV A y → y.sub.complement A = some T → GivesIn A (y.dualInverse A) T (rhInv A R (val A y)) := by
    intro y T hy hT
    refine GivesIn.of_call (un_gives (rightHodgeInverse_un hA) hy) fun op h => ?_
    have := rightHodgeInverse_output hA hy.sub h
    rw [hT] at this
    exact (Option.some_inj.1 this).symm
  have hc := (complement_complement hA hx.sub t1).1
  obtain ⟨a, a1, a2, a3, a4⟩ := d hx t1
  obtain ⟨b, b1, b2, b3, b4⟩ := i hx t1
  refine ⟨?_, ?_, ⟨a, T, a1, t1, a2⟩⟩
  · rw [a1]
    have := i a3 (a2 ▸ hc)
    rw [a4, rhInv_rh] at this
    exact this.eq hx
  · rw [b1]
    have := d b3 (b2 ▸ hc)
    rw [b4, rh_rhInv] at this
    exact this.eq hx

/-- C32: the duals of a basis blade multiply with it to the pseudoscalar `I`, up to the metric sign for the Hodge
variants. -/
theorem C32_blades (hA : WfAlg A) {b : Nat} (hb : b < 2 ^ A.n) :
    (∃ d, Gives A (MV.call (Factory.rightComplementDual A (.sub ⟨[b]⟩)) [bladeMV R b]) d ∧ blade A R b * d = blade A R A.pss) ∧
    (∃ d, Gives A (MV.call (Factory.leftComplementDual A (.sub ⟨[b]⟩)) [bladeMV R b]) d ∧ d * blade A R b = blade A R A.pss) ∧
    (∃ d, Gives A ((bladeMV R b).dual A) d ∧ blade A R b * d = (-1 : R) ^ negCount A b • blade A R A.pss) ∧
    (∃ d, Gives A (MV.call (Factory.leftHodge A (.sub ⟨[b]⟩)) [bladeMV R b]) d ∧
      d * blade A R b = (-1 : R) ^ negCount A b • blade A R A.pss) := by
  have hx := wf_bladeMV (R := R) hb
  have hv := val_bladeMV (A := A) (R := R) b
  have h : ∀ {f : Arg Int → Option (Operator Int)} {L : ∀ (R : Type) [CommRing R], Cl A R → Cl A R}, UnSem A f L →
      Gives A (MV.call (f (.sub ⟨[b]⟩)) [bladeMV R b]) (L R (blade A R b)) := fun {f L} hf => hv ▸ un_gives hf hx
  refine ⟨⟨_, h (f := Factory.rightComplementDual A) fun _ _ _ _ hv => rightComplementDual_sem hA hv, blade_mul_rcd hA hb⟩,
    ⟨_, h (f := Factory.leftComplementDual A) fun _ _ _ _ hv => leftComplementDual_sem hA hv, lcd_mul_blade hA hb⟩,
    ⟨_, h (rightHodge_un hA), ?_⟩, ⟨_, h (f := Factory.leftHodge A) fun _ _ _ _ hv => leftHodge_sem hA hv, ?_⟩⟩
  · rw [blade_mul_rh hA hb, negCount_eq hA]
  · rw [lh_mul_blade hA hb, negCount_eq hA]

example : (bladeMV ℤ 5).dual pga3 = some ⟨⟨[10]⟩, [-1]⟩ ∧ 5 < 2 ^ pga3.n ∧ negCount sta 5 = 1 := by decide +kernel

/-! ## C45 -/

/-- C45: a multivector constructed without values represents 1 if its subspace has the scalar, and 0 otherwise. -/
theorem C45_default {S : SubSpace} (hS : WfSub A S) :
    WfMV A (MV.default S : MV R) ∧ val A (MV.default S : MV R) = if 0 ∈ S.blades then 1 else 0 := by
  refine ⟨⟨hS, by simp [MV.default]⟩, ?_⟩
  have hw : WfMV A (MV.default S : MV R) := ⟨hS, by simp [MV.default]⟩
  obtain ⟨bs⟩ := S
  have hnd := hS.nodup
  clear hS hw
  simp only [val, denote, MV.default] at *
  induction bs with
  | nil => simp
  | cons c cs ih =>
    rw [List.map_cons, List.zipWith_cons_cons, List.sum_cons, ih (List.nodup_cons.1 hnd).2]
    have hc := (List.nodup_cons.1 hnd).1
    by_cases h : c = 0
    · subst h; simp [hc, blade_zero]
    · simp [h, Ne.symm h]

/-- C45: with the scalar blade present it is a two-sided unit of the geometric product. -/
theorem C45_unit (hA : WfAlg A) {S : SubSpace} (hS : WfSub A S) (h0 : 0 ∈ S.blades) {x : MV R} (hx : WfMV A x) :
    Gives A ((MV.default S).product A x) (val A x) ∧ Gives A (x.product A (MV.default S)) (val A x) := by
  obtain ⟨h1, h2⟩ := C45_default (R := R) hS
  rw [if_pos h0] at h2
  exact ⟨(product_gives hA h1 hx).congr (by rw [h2, one_mul]), (product_gives hA hx h1).congr (by rw [h2, mul_one])⟩

example : WfSub pga3 ⟨[0, 3, 6]⟩ ∧ 0 ∈ [0, 3, 6] ∧ (MV.default ⟨[0, 3, 6]⟩ : MV ℤ) = ⟨⟨[0, 3, 6]⟩, [1, 0, 0]⟩ :=
  ⟨wfSub_of_B (by decide +kernel), by decide, by decide⟩

end Verif.Props
