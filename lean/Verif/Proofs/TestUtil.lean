import Verif.Model.TestUtil
import Verif.Props.Spaces
import Verif.Proofs.Conformal
import Verif.Proofs.Physics13
/-! # Random vectors, reflections and motors of the test helpers -/
namespace Verif
open Model Spec Model.Factory Props Model.TestUtil

variable {A : Alg}

/-- `squared` of a vector. -/
theorem vector_squared {R : Type} [Field R] [DecidableEq R] (hA : WfAlg A) (h0 : ∃ j < A.n, A.desc.sig.getD j 0 ≠ 0) {x : MV R} (hx : WfMV A x) (hs : A.vector = some x.sub) :
    x.squared A = some ⟨⟨[0]⟩, [dot A (coords A x) (coords A x)]⟩ ∧ val A x = vec A (coords A x) := by
  have e1 : x.sub = ⟨(List.range A.n).map (2 ^ ·)⟩ := Option.some.inj (hs.symm.trans (vector_eq hA))
  have hom : Homogeneous 1 x := by
    intro b hb
    rw [e1] at hb
    obtain ⟨i, hi, rfl⟩ := List.mem_map.1 hb
    exact popcount_two_pow hA (List.mem_range.1 hi)
  have hv := val_vec hA hx hom
  refine ⟨?_, hv⟩
  have hl := ((diagArg_sub hx.sub).bin (product_bin hA) (diagArg_sub hx.sub)).least hA (k := 2) (by omega) hx.sub
  obtain ⟨o, o1, -, -, ⟨l1, l2, l3⟩, -⟩ := hl
  have o1' : Factory.squared A (.sub x.sub) = some o := o1
  obtain ⟨⟨z, z1, z2, z3⟩, -⟩ := C38_values hA hx
  have zs : z.sub = o.output := by
    rw [MV.squared, o1'] at z1
    exact call_sub z1
  have sq : ∀ (S : Type) [CommRing S] (y : Cl A S), Within A x.sub y → ∃ u : Fin A.n → S, y = vec A u := by
    rintro S _ y ⟨w, w1, w2, rfl⟩
    exact ⟨_, val_vec hA w1 (fun b hb => hom b (w2 ▸ hb))⟩
  have t1 : SubOf o.output ⟨[0]⟩ := l3 ⟨[0]⟩ (scalar_eq hA).2 fun y hy => by
    obtain ⟨u, rfl⟩ := sq ℤ y hy
    show Within A _ (vec A u * vec A u)
    rw [vec_sq, within_iff (scalar_eq hA).2]
    intro b hb hb'
    rw [map_smul, ← blade_zero, coef_blade _ _ (by positivity), if_neg (by simpa using hb'), smul_zero]
  have t2 : o.output = ⟨[0]⟩ := by
    rcases sub_of_scalar l1 t1 with e | e
    swap
    · exact e
    exfalso
    obtain ⟨j, hj, hj0⟩ := h0
    have hb : Within A x.sub (blade A ℤ (2 ^ j)) := within_blade hx.sub (by rw [e1]; exact List.mem_map.2 ⟨j, List.mem_range.2 hj, rfl⟩)
    have := l2 ℤ _ hb
    rw [e, within_iff ⟨by simp, by simp⟩] at this
    have : coef A ℤ 0 (blade A ℤ (2 ^ j) * blade A ℤ (2 ^ j)) = 0 := this 0 (by positivity) (by simp)
    rw [show blade A ℤ (2 ^ j) = gen A ℤ ⟨j, hj⟩ from blade_two_pow _ _ ⟨j, hj⟩, gen_sq, Algebra.algebraMap_eq_smul_one, map_smul, ← blade_zero,
      coef_blade A ℤ (Nat.two_pow_pos _), if_pos rfl, smul_eq_mul, mul_one] at this
    simp [metric] at this
    rw [List.getD_eq_getElem?_getD] at hj0
    exact hj0 (by simpa using this)
  obtain ⟨c, c1, c2⟩ := val_scalar z2 (zs.trans t2)
  rw [z3, hv, vec_sq] at c2
  have c3 : dot A (coords A x) (coords A x) = c := by
    have := congrArg (coef A R 0) c2
    simpa [map_smul, ← blade_zero, coef_blade A R (Nat.two_pow_pos _)] using this
  rw [z1, c3, ← c1, ← t2, ← zs]

section
variable {R : Type} [Field R] [LinearOrder R]

/-- The subspace of vectors. -/
abbrev vecs (A : Alg) : SubSpace := ⟨(List.range A.n).map (2 ^ ·)⟩

/-- The coordinates given by a list of numbers. -/
def crd (A : Alg) {R : Type} [CommRing R] (l : List R) : Fin A.n → R := fun i => l.getD i 0

theorem vecs_wf (hA : WfAlg A) {l : List R} (hl : l.length = A.n) : WfMV A (⟨vecs A, l⟩ : MV R) := by
  refine ⟨?_, by simpa using hl⟩
  obtain ⟨V, v1, v2⟩ := (C14_named hA).2.1
  rw [vector_eq hA] at v1
  cases v1
  exact v2.1

theorem neg_iff (A : Alg) : 0 < A.desc.pqr.2.1 ↔ (-1 : ℤ) ∈ A.desc.sig := by
  simp only [Description.pqr, Description.negatives]
  rw [← List.count_pos_iff]
  have : ∀ l : List Int, (l.map fun s => if s = -1 then 1 else 0).sum = l.count (-1) := by
    intro l
    induction l with
    | nil => rfl
    | cons a l ih => rw [List.map_cons, List.sum_cons, ih, List.count_cons]; simp only [beq_iff_eq]; omega
  rw [this]

theorem inv_mapM (l : List R) : (l.mapM fun v => if v = 0 then (.error .divZero : Except Fail R) else .ok (1 / v)) = if 0 ∈ l then .error .divZero else .ok (l.map (1 / ·)) := by
  induction l with
  | nil => simp; rfl
  | cons a l ih =>
    rw [List.mapM_cons, ih]
    by_cases ha : a = 0
    · subst ha; simp; rfl
    · by_cases hl : (0 : R) ∈ l
      · simp [ha, hl]; rfl
      · rw [if_neg ha, if_neg hl, if_neg (by simp [hl, Ne.symm ha])]; rfl

theorem randomVector_eq (hA : WfAlg A) (draw : List R) : randomVector A draw = if draw.length = A.n then some ⟨vecs A, draw⟩ else none := by
  rw [randomVector, vector_eq hA]
  simp [randomSubspace, MVFactory.multivector, MV.construct]

theorem nonneg_eq (hA : WfAlg A) {draw : List R} (hl : draw.length = A.n) :
    randomNonnegative A draw = if (-1 : ℤ) ∈ A.desc.sig ∧ dot A (crd A draw) (crd A draw) < 0 then
      (if 0 ∈ draw then .error .divZero else .ok ⟨vecs A, draw.map (1 / ·)⟩) else .ok ⟨vecs A, draw⟩ := by
  rw [randomNonnegative, randomVector_eq hA, if_pos hl]
  simp only [lift_some, bind, Except.bind]
  by_cases hq : 0 < A.desc.pqr.2.1
  · have hq' := (neg_iff A).1 hq
    obtain ⟨j, hj, ej⟩ := List.getElem_of_mem hq'
    have h0 : ∃ j < A.n, A.desc.sig.getD j 0 ≠ 0 := ⟨j, hj, by rw [List.getD_eq_getElem?_getD, List.getElem?_eq_getElem hj, ej]; decide⟩
    have hw := vecs_wf hA hl
    have hs := (vector_squared hA h0 hw (vector_eq hA)).1
    rw [coords_range hw] at hs
    rw [if_pos hq, hs]
    simp only [lift_some, inv_mapM, hq', true_and]
    change (if dot A (crd A draw) (crd A draw) < 0 then _ else _) = _
    split_ifs
    · rfl
    · simp [MV.copy, MV.construct, hl, lift_some]
    · simp [MV.copy, MV.construct, hl, lift_some]
  · rw [if_neg hq, if_neg (fun h => hq ((neg_iff A).2 h.1))]

theorem nonneg_length (hA : WfAlg A) {draw : List R} {r : MV R} (h : randomNonnegative A draw = .ok r) : draw.length = A.n := by
  by_contra hl
  rw [randomNonnegative, randomVector_eq hA, if_neg hl] at h
  cases h

/-- What `random_nonnegative_normal_vector` returns is a vector. -/
theorem nonneg_vec (hA : WfAlg A) {draw : List R} {r : MV R} (h : randomNonnegative A draw = .ok r) :
    r.sub = vecs A ∧ WfMV A r ∧ r.vals.length = A.n ∧ ((r.vals = draw ∧ ((-1 : ℤ) ∈ A.desc.sig → 0 ≤ dot A (crd A draw) (crd A draw))) ∨
      (dot A (crd A draw) (crd A draw) < 0 ∧ 0 ∉ draw ∧ r.vals = draw.map (1 / ·))) := by
  have hl := nonneg_length hA h
  rw [nonneg_eq hA hl] at h
  split_ifs at h with h1 h2
  · injection h with h
    subst h
    exact ⟨rfl, vecs_wf hA (by simpa using hl), by simpa using hl, Or.inr ⟨h1.2, h2, rfl⟩⟩
  · injection h with h
    subst h
    exact ⟨rfl, vecs_wf hA hl, hl, Or.inl ⟨rfl, fun h => not_lt.1 fun h' => h1 ⟨h, h'⟩⟩⟩

theorem crd_val (hA : WfAlg A) {r : MV R} (hs : r.sub = vecs A) (hr : WfMV A r) : coords A r = crd A r.vals ∧ val A r = vec A (crd A r.vals) := by
  obtain ⟨S, v⟩ := r
  obtain rfl : S = vecs A := hs
  have h1 := coords_range hr
  refine ⟨h1, ?_⟩
  rw [show crd A v = coords A (⟨vecs A, v⟩ : MV R) from h1.symm]
  refine val_vec hA hr fun b hb => ?_
  obtain ⟨i, hi, rfl⟩ := List.mem_map.1 hb
  exact popcount_two_pow hA (List.mem_range.1 hi)

/-- `random_reflection`. -/
theorem reflection_eq (hA : WfAlg A) (h0 : ∃ j < A.n, A.desc.sig.getD j 0 ≠ 0) (rt : Roots R) (fuel : Nat) {draw : List R} {r : MV R}
    (h : randomNonnegative A draw = .ok r) :
    (∃ s, MV.invSqrtVal rt (dot A (crd A r.vals) (crd A r.vals)) = .ok s ∧
      ∃ y, randomReflection A rt fuel draw = .ok y ∧ y.sub = vecs A ∧ WfMV A y ∧ val A y = s • vec A (crd A r.vals)) ∨
    ∃ e, MV.invSqrtVal rt (dot A (crd A r.vals) (crd A r.vals)) = .error e ∧ randomReflection A rt fuel draw = .error e := by
  obtain ⟨r1, r2, r3, -⟩ := nonneg_vec hA h
  obtain ⟨c1, c2⟩ := crd_val hA r1 r2
  have hs := (vector_squared hA h0 r2 (r1 ▸ vector_eq hA)).1
  rw [c1] at hs
  rw [randomReflection, h]
  simp only [bind, Except.bind, hs, lift_some, MV.inverseSquareRoot, (scalar_eq hA).1, if_true, List.mapM_cons, List.mapM_nil, pure, Except.pure]
  cases hi : MV.invSqrtVal rt (dot A (crd A r.vals) (crd A r.vals)) with
  | error e => exact Or.inr ⟨e, rfl, rfl⟩
  | ok s =>
    have e : (⟨⟨[0]⟩, [dot A (crd A r.vals) (crd A r.vals)]⟩ : MV R).copy [s] = some ⟨⟨[0]⟩, [s]⟩ := by simp [MV.copy, MV.construct]
    have hw : WfMV A (⟨⟨[0]⟩, [s]⟩ : MV R) := ⟨wf_scalar, rfl⟩
    obtain ⟨y, y1, y2, y3, y4⟩ := mul_scalar_in hA r2 hw rfl
    refine Or.inl ⟨s, rfl, y, ?_, y2.trans r1, y3, ?_⟩
    · simp only [e, lift_some, y1]
    · rw [y4, c2]; rfl

theorem reflection_ok (hA : WfAlg A) (h0 : ∃ j < A.n, A.desc.sig.getD j 0 ≠ 0) {rt : Roots R} (hr : RootLaw rt) {fuel : Nat} {draw : List R} {y : MV R}
    (h : randomReflection A rt fuel draw = .ok y) :
    y.sub = vecs A ∧ WfMV A y ∧ ∃ (r : MV R) (s : R), randomNonnegative A draw = .ok r ∧ val A y = vec A (s • crd A r.vals) ∧ dot A (s • crd A r.vals) (s • crd A r.vals) = 1 := by
  cases hn : randomNonnegative A draw with
  | error e => rw [randomReflection, hn] at h; cases h
  | ok r =>
    rcases reflection_eq hA h0 rt fuel hn with ⟨s, s1, y', y1, y2, y3, y4⟩ | ⟨e, -, e2⟩
    swap
    · rw [e2] at h; cases h
    rw [h] at y1
    injection y1 with y1
    subst y1
    refine ⟨y2, y3, r, s, rfl, by rw [y4, vec, vec, map_smul], ?_⟩
    rw [MV.invSqrtVal] at s1
    split_ifs at s1 with hc
    cases hq : rt.sqrt (dot A (crd A r.vals) (crd A r.vals)) with
    | none => rw [hq] at s1; cases s1
    | some ρ =>
      rw [hq] at s1
      injection s1 with s1
      have hρ := hr _ _ hq
      have hρ0 : ρ ≠ 0 := by rintro rfl; exact hc (by rw [← hρ, mul_zero])
      have : dot A (s • crd A r.vals) (s • crd A r.vals) = s * s * dot A (crd A r.vals) (crd A r.vals) := by
        simp only [dot, Finset.mul_sum, Pi.smul_apply, smul_eq_mul]
        exact Finset.sum_congr rfl fun i _ => by ring
      rw [this, ← hρ, ← s1]
      field_simp

theorem sign_cases (x : R) : sign x = 0 ∨ sign x = 1 ∨ sign x = -1 := by
  rw [sign]; split_ifs <;> simp

theorem blade_first {S : SubSpace} (hS : WfSub A S) (h : 0 ∈ S.blades) : S.blades.idxOf 0 = 0 := by
  obtain ⟨bs⟩ := S
  cases bs with
  | nil => cases h
  | cons c cs =>
    rcases List.mem_cons.1 h with e | e
    · subst e; exact List.idxOf_cons_self
    · exfalso
      rcases (List.pairwise_cons.1 hS.sorted).1 0 e with h | ⟨-, h⟩
      · have : popcount 0 = 0 := by decide
        omega
      · omega

theorem signed_eq (hA : WfAlg A) {b : MV R} (hb : WfMV A b) (h0 : 0 ∈ b.sub.blades) :
    ∃ y, TestUtil.signed A b = .ok y ∧ y.sub = b.sub ∧ WfMV A y ∧ val A y = sign (coef A R 0 (val A b)) • val A b := by
  have e := coeff_idxOf hb h0
  rw [blade_first hb.sub h0, coeff_eq hb] at e
  obtain ⟨y, y1, y2, y3⟩ := mul_num_in hA hb (sign (coef A R 0 (val A b)))
  obtain ⟨y', y1', -, -, y4⟩ := mul_num hA hb (sign (coef A R 0 (val A b)))
  cases y1.symm.trans y1'
  refine ⟨y, ?_, y3, y2, y4⟩
  rw [TestUtil.signed]
  cases hv : b.vals with
  | nil =>
    have := hb.len
    rw [hv] at this
    rw [List.eq_nil_of_length_eq_zero this.symm] at h0
    cases h0
  | cons v vs =>
    rw [hv] at e
    have : v = coef A R 0 (val A b) := e.symm
    simp only [this, y1, lift_some]

/-- The product of two vectors has a scalar part and is even. -/
theorem vector_product (hA : WfAlg A) (h0 : ∃ j < A.n, A.desc.sig.getD j 0 ≠ 0) {x y : MV R} (hx : WfMV A x) (hy : WfMV A y) (xs : x.sub = vecs A) (ys : y.sub = vecs A) :
    ∃ z, x.mul A (.mv y) = some z ∧ WfMV A z ∧ EvenSub z.sub ∧ 0 ∈ z.sub.blades ∧ val A z = val A x * val A y := by
  obtain ⟨U, u1, z, z1, z2, z3, z4⟩ := mul_in hA hx hy
  refine ⟨z, z1, z3, ?_, ?_, z4⟩
  · intro b hb
    rw [z2, u1.2, xs, ys] at hb
    obtain ⟨-, a, ha, c, hc, rfl, -⟩ := hb
    obtain ⟨i, hi, rfl⟩ := List.mem_map.1 ha
    obtain ⟨j, hj, rfl⟩ := List.mem_map.1 hc
    have := popcount_xor (2 ^ i) (2 ^ j)
    rw [popcount_two_pow hA (List.mem_range.1 hi), popcount_two_pow hA (List.mem_range.1 hj)] at this
    omega
  · obtain ⟨j, hj, hj0⟩ := h0
    have hm : 2 ^ j ∈ (vecs A).blades := List.mem_map.2 ⟨j, List.mem_range.2 hj, rfl⟩
    obtain ⟨x', x1, x2, x3⟩ := basis_mv (R := R) hx.sub (xs ▸ hm)
    obtain ⟨y', y1, y2, y3⟩ := basis_mv (R := R) hy.sub (ys ▸ hm)
    have g := product_gives hA x1 y1
    rw [MV.product, x2, y2, x3, y3, show blade A R (2 ^ j) = gen A R ⟨j, hj⟩ from blade_two_pow _ _ ⟨j, hj⟩, gen_sq, Algebra.algebraMap_eq_smul_one] at g
    have z1' : x.product A y = some z := by
      rw [MV.mul, MV.upcast] at z1
      simpa using z1
    rw [MV.product] at z1'
    refine call_mem z1' g ?_
    rw [map_smul, ← blade_zero, coef_blade A R (Nat.two_pow_pos _), if_pos rfl, smul_eq_mul, mul_one, metric]
    have : A.desc.sig.getD j 0 ∈ A.desc.sig := by
      rw [List.getD_eq_getElem?_getD, List.getElem?_eq_getElem hj]
      exact List.getElem_mem hj
    rcases hA.sig _ this with e | e | e
    · show ((A.desc.sig.getD j 0 : ℤ) : R) ≠ 0
      rw [e]; simp
    · show ((A.desc.sig.getD j 0 : ℤ) : R) ≠ 0
      rw [e]; simp
    · exact absurd e hj0

theorem even_product (hA : WfAlg A) {x y : MV R} (hx : WfMV A x) (hy : WfMV A y) (ex : EvenSub x.sub) (ey : EvenSub y.sub) (x0 : 0 ∈ x.sub.blades) (y0 : 0 ∈ y.sub.blades) :
    ∃ z, x.mul A (.mv y) = some z ∧ WfMV A z ∧ EvenSub z.sub ∧ 0 ∈ z.sub.blades ∧ val A z = val A x * val A y := by
  obtain ⟨z, z1, z2, z3⟩ := product_gives hA hx hy
  exact ⟨z, by rw [MV.mul, MV.upcast]; simpa using z1, z2, product_even hA hx hy ex ey z1, (product_keeps hA hx hy z1).1 x0 _ y0, z3⟩

/-- A product of an even number of vectors that square to one, times a number that is 0, 1 or -1. -/
def Reflections (A : Alg) {R : Type} [CommRing R] (x : Cl A R) : Prop :=
  ∃ (vs : List (Fin A.n → R)) (e : R), Even vs.length ∧ (∀ v ∈ vs, dot A v v = 1) ∧ (e = 0 ∨ e = 1 ∨ e = -1) ∧ x = e • (vs.map (vec A)).prod

theorem Reflections.mul {x y : Cl A R} (hx : Reflections A x) (hy : Reflections A y) : Reflections A (x * y) := by
  obtain ⟨vs, e, v1, v2, v3, rfl⟩ := hx
  obtain ⟨ws, f, w1, w2, w3, rfl⟩ := hy
  refine ⟨vs ++ ws, e * f, by rw [List.length_append]; exact v1.add w1, ?_, ?_, ?_⟩
  · intro v hv
    rcases List.mem_append.1 hv with h | h
    exacts [v2 v h, w2 v h]
  · rcases v3 with rfl | rfl | rfl <;> rcases w3 with rfl | rfl | rfl <;> simp
  · rw [List.map_append, List.prod_append, smul_mul_smul_comm]

theorem Reflections.smul {x : Cl A R} (hx : Reflections A x) {f : R} (w3 : f = 0 ∨ f = 1 ∨ f = -1) : Reflections A (f • x) := by
  obtain ⟨vs, e, v1, v2, v3, rfl⟩ := hx
  refine ⟨vs, f * e, v1, v2, ?_, by rw [smul_smul]⟩
  rcases v3 with rfl | rfl | rfl <;> rcases w3 with rfl | rfl | rfl <;> simp

/-- What the products of reflections satisfy. -/
structure Good (A : Alg) {R : Type} [CommRing R] (m : MV R) : Prop where
  wf : WfMV A m
  even : EvenSub m.sub
  zero : 0 ∈ m.sub.blades
  refl : Reflections A (val A m)

theorem bireflection_good (hA : WfAlg A) (h0 : ∃ j < A.n, A.desc.sig.getD j 0 ≠ 0) {rt : Roots R} (hr : RootLaw rt) {fuel : Nat} {d : List R × List R} :
    (∀ l r, randomReflection A rt fuel d.1 = .ok l → randomReflection A rt fuel d.2 = .ok r → ∃ m, randomBireflection A rt fuel d = .ok m ∧ Good A m ∧
      val A m = sign (coef A R 0 (val A l * val A r)) • (val A l * val A r)) ∧
    ∀ m, randomBireflection A rt fuel d = .ok m → ∃ l r, randomReflection A rt fuel d.1 = .ok l ∧ randomReflection A rt fuel d.2 = .ok r := by
  constructor
  · intro l r hl hr'
    obtain ⟨l1, l2, rl, sl, -, l3, l4⟩ := reflection_ok hA h0 hr hl
    obtain ⟨r1, r2, rr, sr, -, r3, r4⟩ := reflection_ok hA h0 hr hr'
    obtain ⟨z, z1, z2, z3, z4, z5⟩ := vector_product hA h0 l2 r2 l1 r1
    obtain ⟨m, m1, m2, m3, m4⟩ := signed_eq hA z2 z4
    refine ⟨m, ?_, ⟨m3, m2 ▸ z3, m2 ▸ z4, ?_⟩, by rw [m4, z5]⟩
    · rw [randomBireflection, hl, hr']
      simp only [bind, Except.bind, z1, lift_some, m1]
    · rw [m4]
      refine Reflections.smul ?_ (sign_cases _)
      rw [z5, l3, r3]
      refine ⟨[sl • crd A rl.vals, sr • crd A rr.vals], 1, ⟨1, rfl⟩, ?_, by simp, by simp⟩
      intro v hv
      rcases List.mem_cons.1 hv with rfl | hv
      · exact l4
      · rw [List.mem_singleton.1 hv]; exact r4
  · intro m hm
    rw [randomBireflection] at hm
    obtain ⟨l, l1, hm⟩ := bind_ok hm
    obtain ⟨r, r1, hm⟩ := bind_ok hm
    exact ⟨l, r, l1, r1⟩

theorem reflections_good (hA : WfAlg A) (h0 : ∃ j < A.n, A.desc.sig.getD j 0 ≠ 0) {rt : Roots R} (hr : RootLaw rt) {fuel : Nat} (draw : Nat → List R × List R) (n : Nat) :
    ((∀ k < n, ∃ m, randomBireflection A rt fuel (draw k) = .ok m) → ∃ m, random2nReflection A rt fuel draw n = .ok m) ∧
    ∀ m, random2nReflection A rt fuel draw n = .ok m → Good A m ∧ ∀ k < n, ∃ m, randomBireflection A rt fuel (draw k) = .ok m := by
  induction n with
  | zero =>
    have e : random2nReflection A rt fuel draw 0 = .ok (MV.default ⟨[0]⟩) := by
      rw [random2nReflection, MVFactory.kVector, show A.kVector 0 = some ⟨[0]⟩ from (scalar_eq hA).1]
      rfl
    refine ⟨fun _ => ⟨_, e⟩, fun m hm => ?_⟩
    rw [e] at hm
    injection hm with hm
    subst hm
    obtain ⟨w, v⟩ := C45_default (R := R) (scalar_eq hA).2
    refine ⟨⟨w, ?_, by simp [MV.default], ⟨[], 1, by simp, by simp, by simp, by rw [v]; simp⟩⟩, by omega⟩
    intro b hb
    have : b = 0 := by simpa [MV.default] using hb
    subst this; decide
  | succ n ih =>
    constructor
    · intro hk
      obtain ⟨m, hm⟩ := ih.1 fun k h => hk k (by omega)
      obtain ⟨b, hb⟩ := hk n (by omega)
      obtain ⟨l, r, hl, hr'⟩ := (bireflection_good hA h0 hr).2 b hb
      obtain ⟨b', hb', g, -⟩ := (bireflection_good hA h0 hr).1 l r hl hr'
      rw [hb] at hb'
      injection hb' with hb'
      subst hb'
      have gm := (ih.2 m hm).1
      obtain ⟨z, z1, -⟩ := even_product hA gm.wf g.wf gm.even g.even gm.zero g.zero
      refine ⟨z, ?_⟩
      rw [random2nReflection, hm, hb]
      simp only [bind, Except.bind, z1, lift_some]
    · intro z hz
      rw [random2nReflection] at hz
      obtain ⟨m, hm, hz⟩ := bind_ok hz
      obtain ⟨b, hb, hz⟩ := bind_ok hz
      obtain ⟨l, r, hl, hr'⟩ := (bireflection_good hA h0 hr).2 b hb
      obtain ⟨b', hb', g, -⟩ := (bireflection_good hA h0 hr).1 l r hl hr'
      rw [hb] at hb'
      injection hb' with hb'
      subst hb'
      obtain ⟨gm, km⟩ := ih.2 m hm
      obtain ⟨z', z1, z2, z3, z4, z5⟩ := even_product hA gm.wf g.wf gm.even g.even gm.zero g.zero
      cases z1.symm.trans (lift_ok hz)
      refine ⟨⟨z2, z3, z4, by rw [z5]; exact gm.refl.mul g.refl⟩, fun k hk => ?_⟩
      rcases Nat.lt_succ_iff_lt_or_eq.1 hk with h | rfl
      exacts [km k h, ⟨b, hb⟩]

end

end Verif
