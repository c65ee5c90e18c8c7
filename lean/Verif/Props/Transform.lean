import Verif.Props.Sandwich
/-! # Property C58: `transform`

The docstring of `transform` (numga/operator/factory.py:535-544) asks for the sandwich that preserves outer products:
an odd `r` has to act on the grade `k` part of `v` with the sign `(-1) ^ k`. -/
namespace Verif.Props
open Model Spec Model.Factory

variable {A : Alg} {R : Type} [CommRing R]

/-- The intended value: `r * v * ~r` for even `r` and `r * v^ * ~r`, with `^` the grade involution, for odd `r`; cut down
to the grades of the subspace of `v` as `sandwich` does. -/
noncomputable def transformed (A : Alg) (R : Type) [CommRing R] (V : SubSpace) (p : Nat) (r v : Cl A R) : Cl A R :=
  gradesOf A R V (r * (if p % 2 = 0 then v else CliffordAlgebra.involute v) * CliffordAlgebra.reverse r)

theorem denote_scale {S : SubSpace} (c : R) (v : List R) : denote A R S (v.map (c * ·)) = c • denote A R S v := by
  obtain ⟨bs⟩ := S
  simp only [denote]
  induction bs generalizing v with
  | nil => simp
  | cons c cs ih =>
    cases v with
    | nil => simp
    | cons a v => simp only [List.map_cons, List.zipWith_cons_cons, List.sum_cons, ih, mul_smul, smul_add]

/-- An operator whose kernel is the one of `op` scaled by `c` returns the scaled values. -/
theorem apply_scale {op op' : Operator Int} {c : Int} (hs : op'.kernel.shape = op.kernel.shape)
    (hg : ∀ idx, idx ∈ allIdx op.kernel.shape → op'.kernel.get idx = op.kernel.get idx * c) (xs : List (List R))
    (hne : op.kernel.shape ≠ []) :
    op'.apply R xs = (op.apply R xs).map ((c : R) * ·) := by
  simp only [Operator.apply, Operator.eval, Operator.cast, Tensor.map, hs, List.map_map]
  apply List.map_congr_left
  intro o ho
  simp only [Function.comp, Operator.evalAt, hs]
  rw [← List.sum_map_mul_left]
  congr 1
  apply List.map_congr_left
  intro idx hidx
  rw [hg]
  · push_cast; ring
  · rw [mem_allIdx] at hidx ⊢
    rw [← List.dropLast_append_getLast hne]
    refine List.rel_append hidx (List.Forall₂.cons ?_ List.Forall₂.nil)
    rw [List.mem_range, List.getLastD_eq_getLast?, List.getLast?_eq_some_getLast hne] at ho
    exact ho

theorem pyMatch_some {l : List Nat} {p : Nat} (hne : l ≠ []) (h : ∀ a ∈ l, a = p) : pyMatch l = some p := by
  cases l with
  | nil => exact absurd rfl hne
  | cons a as =>
    have ha := h a List.mem_cons_self
    subst ha
    rw [pyMatch, if_pos]
    rw [List.all_eq_true]
    intro b hb
    simpa using h b (List.mem_cons_of_mem _ hb)

theorem pyMatch_none {l : List Nat} (h : l = [] ∨ ∃ a ∈ l, ∃ b ∈ l, a ≠ b) : pyMatch l = none := by
  cases l with
  | nil => rfl
  | cons a as =>
    rw [pyMatch, if_neg]
    intro hall
    rw [List.all_eq_true] at hall
    have key : ∀ b ∈ a :: as, b = a := by
      intro b hb
      rcases List.mem_cons.1 hb with rfl | hb
      · rfl
      · simpa using hall b hb
    rcases h with h | ⟨x, hx, y, hy, hne⟩
    · cases h
    · exact hne ((key x hx).trans (key y hy).symm)

theorem parityToSign_eq (m : Nat) : parityToSign (m : Int) = (-1) ^ m := by
  rw [parityToSign]
  rcases Nat.mod_two_eq_zero_or_one m with h | h
  · rw [Even.neg_one_pow (Nat.even_iff.2 h)]; omega
  · rw [Odd.neg_one_pow (Nat.odd_iff.2 h)]; omega

theorem involute_homogeneous (hA : WfAlg A) {x : MV R} (hx : WfMV A x) {k : Nat} (h : Homogeneous k x) :
    CliffordAlgebra.involute (val A x) = ((-1 : R) ^ k) • val A x := by
  apply ext_coef
  intro b hb
  rw [map_smul, coef_involute hA R hb]
  by_cases hm : b ∈ x.sub.blades
  · rw [h b hm, smul_eq_mul]
  · rw [← coeff_eq hx b, coeff_notMem hm]; simp

theorem transform_scaled (hA : WfAlg A) {r v : MV R} (hr : WfMV A r) (hv : WfMV A v) {p : Nat}
    (hne : r.sub.blades ≠ []) (hp : ∀ b ∈ r.sub.blades, popcount b % 2 = p)
    (hl : v.sub.blades.length = r.sub.blades.length ∨ v.sub.blades.length = 1)
    {c : Int} (hc : ∀ b ∈ v.sub.blades, (-1 : Int) ^ (popcount b * p) = c) :
    Gives A (r.transform A v) ((c : R) • gradesOf A R v.sub (val A r * val A v * CliffordAlgebra.reverse (val A r))) := by
  obtain ⟨S, s1, s2, s3, s4⟩ := sandwich_sem hA hr.sub hv.sub
  have hpm : pyMatch ((r.sub.grades A).map (· % 2)) = some p := by
    apply pyMatch_some
    · simpa [SubSpace.grades] using hne
    · intro a ha
      simp only [SubSpace.grades, List.map_map, List.mem_map, Function.comp] at ha
      obtain ⟨b, hb, rfl⟩ := ha
      rw [grade_popcount hA (hr.sub.lt b hb), hp b hb]
  have hax : S.axes = [r.sub, v.sub, r.sub, S.output] := by
    have := List.dropLast_append_getLast s2.ne
    rw [← this]
    simp only [Operator.inputs] at s3
    rw [s3, Operator.output]
    simp [List.getLastD_eq_getLast?, List.getLast?_eq_some_getLast s2.ne]
  have hsh : S.kernel.shape = [r.sub.blades.length, v.sub.blades.length, r.sub.blades.length, S.output.blades.length] := by
    rw [s2.shape, hax]; simp
  have hml : ((v.sub.grades A).map fun g => parityToSign ((g * p : Nat) : Int)).length = v.sub.blades.length := by
    simp [SubSpace.grades]
  have hmask : ∀ i < v.sub.blades.length, ((v.sub.grades A).map fun g => parityToSign ((g * p : Nat) : Int)).getD i 0 = c := by
    intro i hi
    simp only [SubSpace.grades, List.map_map, Function.comp_def]
    rw [List.getD_eq_getElem?_getD, List.getElem?_eq_getElem (by simpa using hi), Option.getD_some, List.getElem_map, parityToSign_eq,
      grade_popcount hA (hv.sub.lt _ (List.getElem_mem hi))]
    exact hc _ (List.getElem_mem hi)
  obtain ⟨k, k1, k2, k3⟩ : ∃ k, broadcastMask S.kernel ((v.sub.grades A).map fun g => parityToSign ((g * p : Nat) : Int)) = some k ∧
      k.shape = S.kernel.shape ∧ ∀ idx, idx ∈ allIdx S.kernel.shape → k.get idx = S.kernel.get idx * c := by
    rw [broadcastMask, hsh]
    simp only [hml, if_pos hl]
    refine ⟨_, rfl, rfl, ?_⟩
    intro idx hidx
    rw [mem_allIdx] at hidx
    simp only
    congr 1
    rcases hidx with _ | ⟨h0, _ | ⟨h1, _ | ⟨h2, h3⟩⟩⟩
    split_ifs with h
    · exact hmask 0 (by omega)
    · exact hmask _ (by simp only [List.getD_cons_succ, List.getD_cons_zero]; rcases hl with hl | hl <;> omega)
  have hop : transform A r.sub v.sub = some ⟨k, S.axes⟩ := by
    simp only [transform, hpm, s1, k1, Option.bind_eq_bind, Option.bind_some]
  obtain ⟨z, z1, z2, z3⟩ := sandwich_gives hA hr hv
  rw [MV.sandwich, s1, MV.call, Option.bind_eq_bind, Option.bind_some] at z1
  rw [MV.transform, hop, MV.call, Option.bind_eq_bind, Option.bind_some]
  split at z1
  case isFalse => cases z1
  rename_i hin
  rw [if_pos (by exact hin)]
  have hap := apply_scale (R := R) (op := S) (op' := ⟨k, S.axes⟩) (c := c) k2 k3 ([r, v, r].map (·.vals)) (by rw [hsh]; simp)
  rw [hap]
  rw [MV.construct] at z1
  split at z1
  case isFalse => cases z1
  rename_i hlen
  cases z1
  refine (construct_gives (S := S.output) z2.sub (by rw [List.length_map]; exact hlen)).congr ?_
  rw [denote_scale, ← z3]
  rfl

/-- C58, part: for `r` of a single parity and a homogeneous `v`, or an even `r` and any `v`, `transform` is the intended
sandwich, provided `v` stores one component or as many as `r`.  Missing: operands of other sizes and mixed-grade `v` with an
odd `r`; `C58_raises` and `C58_wrong` show that the code fails there. -/
theorem C58_transform_partial (hA : WfAlg A) {r v : MV R} (hr : WfMV A r) (hv : WfMV A v) {p : Nat}
    (hne : r.sub.blades ≠ []) (hp : ∀ b ∈ r.sub.blades, popcount b % 2 = p)
    (hl : v.sub.blades.length = r.sub.blades.length ∨ v.sub.blades.length = 1)
    (hv' : p = 0 ∨ ∃ k, Homogeneous k v) :
    Gives A (r.transform A v) (transformed A R v.sub p (val A r) (val A v)) := by
  have hp2 : p < 2 := by
    obtain ⟨b, hb⟩ := List.exists_mem_of_ne_nil _ hne
    rw [← hp b hb]; exact Nat.mod_lt _ (by norm_num)
  rw [transformed]
  obtain rfl | rfl : p = 0 ∨ p = 1 := by omega
  · refine (transform_scaled hA hr hv hne hp hl (c := 1) (by simp)).congr ?_
    simp
  · obtain hv' | ⟨k, hk⟩ := hv'
    · cases hv'
    · refine (transform_scaled hA hr hv hne hp hl (c := (-1) ^ k) (fun b hb => by rw [hk b hb, mul_one])).congr ?_
      rw [if_neg (by norm_num), involute_homogeneous hA hv hk, gradesOf, mul_smul_comm, smul_mul_assoc, map_smul]
      push_cast
      rfl

/-- C58: for an even `r`, `transform` and `sandwich` return the same value. -/
theorem C58_even_partial (hA : WfAlg A) {r v : MV R} (hr : WfMV A r) (hv : WfMV A v)
    (hne : r.sub.blades ≠ []) (hp : ∀ b ∈ r.sub.blades, popcount b % 2 = 0)
    (hl : v.sub.blades.length = r.sub.blades.length ∨ v.sub.blades.length = 1) :
    ∃ z w, r.transform A v = some z ∧ r.sandwich A v = some w ∧ val A z = val A w := by
  obtain ⟨z, z1, _, z3⟩ := C58_transform_partial hA hr hv hne hp hl (Or.inl rfl)
  obtain ⟨w, w1, _, w3⟩ := sandwich_gives hA hr hv
  exact ⟨z, w, z1, w1, by rw [z3, w3, transformed, if_pos rfl]⟩

/-- C58: `transform` raises whenever the two operands store different numbers of components, neither of them one; and
whenever `r` is empty or mixes parities. -/
theorem C58_raises (hA : WfAlg A) {r v : MV R} (hr : WfMV A r) (hv : WfMV A v)
    (h : (v.sub.blades.length ≠ r.sub.blades.length ∧ v.sub.blades.length ≠ 1 ∧ r.sub.blades.length ≠ 1) ∨
      r.sub.blades = [] ∨ ∃ a ∈ r.sub.blades, ∃ b ∈ r.sub.blades, popcount a % 2 ≠ popcount b % 2) :
    r.transform A v = none := by
  suffices transform A r.sub v.sub = none by rw [MV.transform, this]; rfl
  rcases h with ⟨h1, h2, h3⟩ | h
  · obtain ⟨S, s1, s2, s3, s4⟩ := sandwich_sem hA hr.sub hv.sub
    have hax : S.axes = [r.sub, v.sub, r.sub, S.output] := by
      have := List.dropLast_append_getLast s2.ne
      rw [← this]
      simp only [Operator.inputs] at s3
      rw [s3, Operator.output]
      simp [List.getLastD_eq_getLast?, List.getLast?_eq_some_getLast s2.ne]
    have hsh : S.kernel.shape = [r.sub.blades.length, v.sub.blades.length, r.sub.blades.length, S.output.blades.length] := by
      rw [s2.shape, hax]; simp
    have key : ∀ m : List Int, m.length = v.sub.blades.length → broadcastMask S.kernel m = none := by
      intro m hm
      rw [broadcastMask, hsh]
      simp only [hm]
      rw [if_neg (by tauto), if_neg h3]
    rw [transform]
    cases pyMatch ((r.sub.grades A).map (· % 2)) with
    | none => rfl
    | some p =>
      simp only [s1, Option.bind_eq_bind, Option.bind_some]
      rw [key _ (by simp [SubSpace.grades])]
      rfl
  · have : pyMatch ((r.sub.grades A).map (· % 2)) = none := by
      apply pyMatch_none
      rcases h with h | ⟨a, ha, b, hb, hab⟩
      · left; simp [SubSpace.grades, h]
      · right
        have hm : ∀ c ∈ r.sub.blades, popcount c % 2 ∈ (r.sub.grades A).map (· % 2) := by
          intro c hc
          simp only [SubSpace.grades, List.map_map, List.mem_map, Function.comp]
          exact ⟨c, hc, by rw [grade_popcount hA (hr.sub.lt c hc)]⟩
        exact ⟨_, hm a ha, _, hm b hb, hab⟩
    rw [transform, this]; rfl

/-- The intended value is what the docstring asks for: for a product `r` of vectors with `r * ~r = 1` it preserves outer
products (the part of grade `k + l` of the product of elements of grades `k` and `l`). -/
theorem C58_outermorphism (hA : WfAlg A) (vs : List (Fin A.n → R)) {r : Cl A R}
    (h : r = (vs.map (CliffordAlgebra.ι (Q A R))).prod) (h1 : CliffordAlgebra.reverse r * r = 1) {k l : Nat} {x y : Cl A R}
    (hx : gradePart A R k x = x) (hy : gradePart A R l y = y) (f : Cl A R → Cl A R)
    (hf : f = fun v => r * (if vs.length % 2 = 0 then v else CliffordAlgebra.involute v) * CliffordAlgebra.reverse r) :
    gradePart A R (k + l) (f x * f y) = f (gradePart A R (k + l) (x * y)) := by
  have hinv : ∀ {j} {z : Cl A R}, gradePart A R j z = z → CliffordAlgebra.involute z = ((-1 : R) ^ j) • z := by
    intro j z hz
    apply ext_coef
    intro b hb
    rw [map_smul, coef_involute hA R hb, ← hz, gradePart_eq_proj, coef_proj]
    split_ifs with hb'
    · rw [hb', smul_eq_mul]
    · simp
  have hlin : ∀ z, gradePart A R (k + l) (r * z * CliffordAlgebra.reverse r) = r * gradePart A R (k + l) z * CliffordAlgebra.reverse r := by
    intro z
    have hz : z = ∑ j ∈ Finset.range (A.n + 1), gradePart A R j z := (sum_gradePart hA z).symm
    conv_lhs => rw [hz]
    rw [Finset.mul_sum, Finset.sum_mul, map_sum]
    have : ∀ j ∈ Finset.range (A.n + 1), gradePart A R (k + l) (r * gradePart A R j z * CliffordAlgebra.reverse r) =
        if j = k + l then r * gradePart A R (k + l) z * CliffordAlgebra.reverse r else 0 := by
      intro j _
      have hj : gradePart A R j (gradePart A R j z) = gradePart A R j z := by
        rw [gradePart_eq_proj, proj_proj]; apply proj_congr; simp
      have hv := versor_sandwich hA vs j hj
      rw [← h] at hv
      rw [← hv]
      split_ifs with e
      · subst e; rw [hv, hv]
      · rw [gradePart_eq_proj, gradePart_eq_proj, proj_proj]
        apply ext_coef
        intro b _
        rw [coef_proj, if_neg (by rintro ⟨h1, h2⟩; exact e (h2.symm.trans h1)), map_zero]
    rw [Finset.sum_congr rfl this, Finset.sum_ite_eq']
    split_ifs with hm
    · rfl
    · rw [gradePart_eq_proj]
      have : proj A R (fun b => popcount b = k + l) z = 0 := by
        apply ext_coef
        intro b hb
        rw [coef_proj, if_neg, map_zero]
        have := popcount_le hA.le32 hb
        simp only [Finset.mem_range] at hm
        omega
      rw [this]; simp
  have hmul : ∀ z w, (r * z * CliffordAlgebra.reverse r) * (r * w * CliffordAlgebra.reverse r) = r * (z * w) * CliffordAlgebra.reverse r := by
    intro z w
    calc _ = r * z * (CliffordAlgebra.reverse r * r) * w * CliffordAlgebra.reverse r := by simp only [mul_assoc]
      _ = _ := by rw [h1, mul_one]; simp only [mul_assoc]
  have hg : gradePart A R (k + l) (gradePart A R (k + l) (x * y)) = gradePart A R (k + l) (x * y) := by
    rw [gradePart_eq_proj, proj_proj]; apply proj_congr; simp
  subst hf
  simp only
  split_ifs with e
  · rw [hmul, hlin]
  · rw [hinv hx, hinv hy, hinv hg, hmul, hlin, smul_mul_assoc, mul_smul_comm, map_smul, map_smul, smul_smul, ← pow_add]

/-- Two dimensional Euclidean algebra. -/
def euc2 : Alg := ⟨⟨["x".toList, "y".toList], [1, 1]⟩, 1, 1⟩
theorem wf_euc2 : WfAlg euc2 := by constructor <;> decide

/-- A vector, a rotor-like even element, and a vector of equal sizes. -/
def exOdd : MV ℤ := ⟨⟨[1, 2]⟩, [1, 2]⟩
/-- `1 + 2 xy`. -/
def exEven : MV ℤ := ⟨⟨[0, 3]⟩, [1, 2]⟩
/-- `3 + 5 x`, of mixed grade. -/
def exMix : MV ℤ := ⟨⟨[0, 1]⟩, [3, 5]⟩

example : exOdd.transform euc2 exOdd = some ⟨⟨[1, 2]⟩, [-5, -10]⟩ ∧ Homogeneous 1 exOdd ∧
    (∀ b ∈ exOdd.sub.blades, popcount b % 2 = 1) ∧ WfMV euc2 exOdd :=
  ⟨by decide +kernel, by unfold Homogeneous; decide +kernel, by decide +kernel, ⟨wfSub_of_B (by decide +kernel), rfl⟩⟩
example : exEven.transform euc2 exOdd = some ⟨⟨[1, 2]⟩, [5, -10]⟩ ∧ (∀ b ∈ exEven.sub.blades, popcount b % 2 = 0) ∧
    WfMV euc2 exEven ∧ exOdd.sub.blades.length = exEven.sub.blades.length :=
  ⟨by decide +kernel, by decide +kernel, ⟨wfSub_of_B (by decide +kernel), rfl⟩, rfl⟩
/-- Rotating a three dimensional vector with a rotor raises: three components against four. -/
example : (⟨⟨[0, 3, 5, 6]⟩, [1, 0, 0, 0]⟩ : MV ℤ).transform sta ⟨⟨[1, 2, 4]⟩, [1, 0, 0]⟩ = none :=
  C58_raises wf_sta ⟨wfSub_of_B (by decide +kernel), rfl⟩ ⟨wfSub_of_B (by decide +kernel), rfl⟩ (Or.inl (by decide))

/-- C58: with an odd `r` and a `v` of mixed grade the code returns a wrong value: the signs of the components of `v` are
applied to the components of `r`.  Intended is `15 + 15 x - 20 y`. -/
theorem C58_wrong : WfAlg euc2 ∧ WfMV euc2 exOdd ∧ WfMV euc2 exMix ∧
    exOdd.transform euc2 exMix = some ⟨⟨[0, 1, 2]⟩, [-9, 25, 0]⟩ ∧
    Gives euc2 (some (⟨⟨[0, 1, 2]⟩, [15, 15, -20]⟩ : MV ℤ)) (transformed euc2 ℤ exMix.sub 1 (val euc2 exOdd) (val euc2 exMix)) := by
  have hO : WfMV euc2 exOdd := ⟨wfSub_of_B (by decide +kernel), rfl⟩
  have hM : WfMV euc2 exMix := ⟨wfSub_of_B (by decide +kernel), rfl⟩
  have hM' : WfMV euc2 (⟨⟨[0, 1]⟩, [3, -5]⟩ : MV ℤ) := ⟨wfSub_of_B (by decide +kernel), rfl⟩
  refine ⟨wf_euc2, hO, hM, by decide +kernel, ?_⟩
  have h := sandwich_gives wf_euc2 hO hM'
  have e : exOdd.sandwich euc2 (⟨⟨[0, 1]⟩, [3, -5]⟩ : MV ℤ) = some ⟨⟨[0, 1, 2]⟩, [15, 15, -20]⟩ := by decide +kernel
  rw [e] at h
  refine h.congr ?_
  rw [transformed, if_neg (by norm_num)]
  suffices hs : val euc2 (⟨⟨[0, 1]⟩, [3, -5]⟩ : MV ℤ) = CliffordAlgebra.involute (val euc2 exMix) by rw [hs]; rfl
  apply ext_coef
  intro b hb
  rw [coef_involute wf_euc2 ℤ hb, ← coeff_eq hM, ← coeff_eq hM']
  have : ∀ b < 4, coeff (⟨⟨[0, 1]⟩, [3, -5]⟩ : MV ℤ) b = (-1) ^ popcount b * coeff exMix b := by decide +kernel
  exact this b hb

end Verif.Props
