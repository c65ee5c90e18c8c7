import Verif.Proofs.Outputs
/-! # Values, coefficients and calls of multivectors -/
namespace Verif
open Model Spec Model.Factory

variable {A : Alg} {R : Type} [CommRing R]

theorem un_gives {f : Arg Int → Option (Operator Int)} {L : ∀ (R : Type) [CommRing R], Cl A R → Cl A R} (h : UnSem A f L)
    {x : MV R} (hx : WfMV A x) : Gives A (MV.call (f (.sub x.sub)) [x]) (L R (val A x)) :=
  call_gives1 (h (argSem_sub hx.sub)) hx trivial

theorem bin_gives {f : Arg Int → Arg Int → Option (Operator Int)} {B : ∀ (R : Type) [CommRing R], Cl A R → Cl A R → Cl A R}
    (h : BinSem A f B) {x y : MV R} (hx : WfMV A x) (hy : WfMV A y) :
    Gives A (MV.call (f (.sub x.sub) (.sub y.sub)) [x, y]) (B R (val A x) (val A y)) :=
  call_gives2 (h (argSem_sub hx.sub) (argSem_sub hy.sub)) hx hy ⟨trivial, trivial⟩

theorem product_gives (hA : WfAlg A) {x y : MV R} (hx : WfMV A x) (hy : WfMV A y) : Gives A (x.product A y) (val A x * val A y) :=
  bin_gives (product_bin hA) hx hy

theorem Spec.Agree.of {r s : Option (MV R)} {v w : Cl A R} (hr : Gives A r v) (hs : Gives A s w) (h : v = w) : Agree A r s :=
  ⟨v, hr, h ▸ hs⟩

theorem coef_denote {S : SubSpace} (hS : WfSub A S) {v : List R} (hv : v.length = S.blades.length) (b : Nat) :
    coef A R b (denote A R S v) = ((S.blades.zip v).lookup b).getD 0 := by
  obtain ⟨bs⟩ := S
  have hlt := hS.lt
  have hnd := hS.nodup
  clear hS
  simp only [denote] at *
  induction bs generalizing v with
  | nil => simp
  | cons c cs ih =>
    obtain _ | ⟨w, ws⟩ := v
    · simp at hv
    rw [List.zipWith_cons_cons, List.sum_cons, map_add, map_smul, coef_blade _ _ (hlt c List.mem_cons_self),
      ih (by simpa using hv) (fun d hd => hlt d (List.mem_cons_of_mem _ hd)) (List.nodup_cons.1 hnd).2, List.zip_cons_cons, List.lookup_cons]
    by_cases hb : b = c
    · subst hb
      have : (cs.zip ws).lookup b = none := by
        rw [List.lookup_eq_none_iff]
        intro p hp
        have := (List.of_mem_zip hp).1
        simp only [bne_iff_ne, ne_eq]
        rintro rfl
        exact (List.nodup_cons.1 hnd).1 this
      simp [this]
    · rw [if_neg hb, beq_eq_false_iff_ne.2 hb]
      simp

theorem coeff_eq {x : MV R} (hx : WfMV A x) (b : Nat) : coeff x b = coef A R b (val A x) := (coef_denote hx.sub hx.len b).symm

theorem coeff_notMem {x : MV R} {b : Nat} (hb : b ∉ x.sub.blades) : coeff x b = 0 := by
  have : (x.sub.blades.zip x.vals).lookup b = none := by
    rw [List.lookup_eq_none_iff]
    intro p hp
    have := (List.of_mem_zip hp).1
    simp only [bne_iff_ne, ne_eq]
    rintro rfl
    exact hb this
  rw [coeff, this]; rfl

theorem coef_proj (p : Nat → Prop) [DecidablePred p] {b : Nat} (x : Cl A R) :
    coef A R b (proj A R p x) = if p b then coef A R b x else 0 := by
  have : (coef A R b).comp (proj A R p) = if p b then coef A R b else 0 := by
    apply lin_ext
    intro a ha
    rw [LinearMap.comp_apply, proj_blade p ha]
    by_cases h : p a
    · rw [if_pos h]
      by_cases h' : p b
      · rw [if_pos h']
      · rw [if_neg h', coef_blade _ _ ha, if_neg (by rintro rfl; exact h' h)]; rfl
    · rw [if_neg h, map_zero]
      split
      · rename_i h'
        rw [coef_blade _ _ ha, if_neg (by rintro rfl; exact h h')]
      · rfl
  have := LinearMap.congr_fun this x
  rw [LinearMap.comp_apply] at this
  rw [this]
  split <;> rfl

theorem gradePart_eq_proj (k : Nat) : gradePart A R k = proj A R (popcount · = k) := rfl

theorem proj_proj (p q : Nat → Prop) [DecidablePred p] [DecidablePred q] (x : Cl A R) :
    proj A R p (proj A R q x) = proj A R (fun b => p b ∧ q b) x := by
  have : (proj A R p).comp (proj A R q) = proj A R (fun b => p b ∧ q b) := by
    apply lin_ext
    intro a ha
    rw [LinearMap.comp_apply, proj_blade q ha, proj_blade _ ha]
    by_cases h : q a
    · rw [if_pos h, proj_blade p ha]; simp [h]
    · rw [if_neg h, map_zero]; simp [h]
  exact LinearMap.congr_fun this x

theorem proj_congr {p q : Nat → Prop} [DecidablePred p] [DecidablePred q] (h : ∀ b < 2 ^ A.n, p b ↔ q b) (x : Cl A R) :
    proj A R p x = proj A R q x := by
  have : proj A R p = proj A R q := by
    apply lin_ext
    intro a ha
    rw [proj_blade p ha, proj_blade q ha]
    simp only [h a ha]
  exact LinearMap.congr_fun this x

/-- A map that fixes the stored blades fixes the value. -/
theorem map_val_eq {x : MV R} (L M : Cl A R →ₗ[R] Cl A R) (hL : ∀ b ∈ x.sub.blades, L (blade A R b) = M (blade A R b)) :
    L (val A x) = M (val A x) := by
  obtain ⟨⟨bs⟩, v⟩ := x
  simp only [val, denote] at *
  induction bs generalizing v with
  | nil => simp
  | cons c cs ih =>
    cases v with
    | nil => simp
    | cons w ws =>
      rw [List.zipWith_cons_cons, List.sum_cons, map_add, map_add, map_smul, map_smul, hL c List.mem_cons_self,
        ih _ fun b hb => hL b (List.mem_cons_of_mem _ hb)]

theorem proj_val {x : MV R} (hx : WfMV A x) (p : Nat → Prop) [DecidablePred p] (hp : ∀ b ∈ x.sub.blades, p b) :
    proj A R p (val A x) = val A x := by
  have := map_val_eq (x := x) (proj A R p) LinearMap.id fun b hb => by rw [proj_blade p (hx.sub.lt b hb), if_pos (hp b hb)]; rfl
  exact this

theorem selectSubspace_givesIn {x : MV R} (hx : WfMV A x) {S : SubSpace} (hS : WfSub A S) :
    GivesIn A (x.selectSubspace A S) S (proj A R (· ∈ S.blades) (val A x)) := by
  obtain ⟨op, h1, h2, h3, h4⟩ := select_sem hx.sub hS (v := .sub x.sub) rfl (· ∈ S.blades) (fun _ _ => Iff.rfl)
  have hs : Sem A (Factory.select A (.sub x.sub) S) [x.sub] (Cond.triv A) (fun R _ ds => proj A R (· ∈ S.blades) (ds.headD 0)) :=
    ⟨op, h1, h2, by rw [Operator.inputs, h3]; rfl, h4⟩
  exact GivesIn.of_call (call_gives1 hs hx trivial) fun op hop => select_output hx.sub hS hop

theorem restrictSubspace_gives (hA : WfAlg A) {x : MV R} (hx : WfMV A x) {S : SubSpace} (hS : WfSub A S) :
    ∃ T, S.intersection A x.sub = some T ∧ GivesIn A (x.restrictSubspace A S) T (proj A R (· ∈ S.blades) (val A x)) := by
  obtain ⟨op, T, h0, h1, h2, h3, _, h4⟩ := restrict_sem hA hx.sub hS
  have hs : Sem A (Factory.restrict A x.sub S) [x.sub] (Cond.triv A) (fun R _ ds => proj A R (· ∈ S.blades) (ds.headD 0)) :=
    ⟨op, h1, h2, by rw [Operator.inputs, h3]; rfl, h4⟩
  refine ⟨T, h0, GivesIn.of_call (call_gives1 hs hx trivial) fun op' hop => ?_⟩
  cases h1.symm.trans hop
  rw [Operator.output, h3]; rfl

/-! ### sums -/

theorem denote_linear {S : SubSpace} {v w : List R} (hv : v.length = S.blades.length) (hw : w.length = S.blades.length) (s : R) :
    denote A R S (List.zipWith (fun a b => a + b * s) v w) = denote A R S v + s • denote A R S w := by
  obtain ⟨bs⟩ := S
  simp only [denote] at *
  induction bs generalizing v w with
  | nil => simp
  | cons c cs ih =>
    obtain _ | ⟨a, v⟩ := v
    · simp at hv
    obtain _ | ⟨b, w⟩ := w
    · simp at hw
    simp only [List.zipWith_cons_cons, List.sum_cons]
    rw [ih (by simpa using hv) (by simpa using hw), add_smul, smul_add, mul_comm b s, mul_smul]
    abel

theorem denote_neg {S : SubSpace} (v : List R) : denote A R S (v.map (- ·)) = - denote A R S v := by
  obtain ⟨bs⟩ := S
  simp only [denote]
  induction bs generalizing v with
  | nil => simp
  | cons c cs ih =>
    cases v with
    | nil => simp
    | cons a v =>
      simp only [List.map_cons, List.zipWith_cons_cons, List.sum_cons, ih, neg_smul]
      abel

theorem combine_gives (hA : WfAlg A) {x y : MV R} (hx : WfMV A x) (hy : WfMV A y) (s : R) :
    ∃ U, x.sub.union A y.sub = some U ∧ GivesIn A (x.combine A y s) U (val A x + s • val A y) := by
  obtain ⟨U, u1, u2, u3⟩ := union_spec hA hx.sub hy.sub
  refine ⟨U, u1, ?_⟩
  rw [MV.combine]
  by_cases h : x.sub = y.sub
  · have hU : U = x.sub := WfSub.ext u2 hx.sub fun b => by
      rw [u3, ← h]; exact ⟨fun h => by simpa using h.2, fun hb => ⟨hx.sub.lt b hb, Or.inl hb⟩⟩
    subst hU
    have hl : (List.zipWith (fun a b => a + b * s) x.vals y.vals).length = x.sub.blades.length := by
      rw [List.length_zipWith, hx.len, hy.len, h, min_self]
    rw [if_pos h, MV.copy, MV.construct, if_pos hl]
    refine ⟨_, rfl, rfl, ⟨hx.sub, hl⟩, ?_⟩
    rw [val, val, val, denote_linear hx.len (by rw [hy.len, h]), h]
  · rw [if_neg h]
    obtain ⟨a, a1, a2, a3, a4⟩ := selectSubspace_givesIn hx u2
    obtain ⟨b, b1, b2, b3, b4⟩ := selectSubspace_givesIn hy u2
    rw [proj_val hx _ fun c hc => (u3 c).2 ⟨hx.sub.lt c hc, Or.inl hc⟩] at a4
    rw [proj_val hy _ fun c hc => (u3 c).2 ⟨hy.sub.lt c hc, Or.inr hc⟩] at b4
    have hl : (List.zipWith (fun a b => a + b * s) a.vals b.vals).length = U.blades.length := by
      rw [List.length_zipWith, a3.len, b3.len, a2, b2, min_self]
    simp only [u1, a1, b1, Option.bind_eq_bind, Option.bind_some]
    rw [MV.construct, if_pos hl]
    refine ⟨_, rfl, rfl, ⟨u2, hl⟩, ?_⟩
    rw [← a4, ← b4, val, denote_linear (by rw [a3.len, a2]) (by rw [b3.len, b2]), val, val, a2, b2]

theorem scalar_eq (hA : WfAlg A) : A.scalar = some ⟨[0]⟩ ∧ WfSub A ⟨[0]⟩ := by
  obtain ⟨S, h1, h2, h3⟩ := kVector_isSpace hA (g := 0) (k := 0) ⟨by omega, Or.inl rfl⟩
  have : S = ⟨[0]⟩ := WfSub.ext h2 ⟨by simp, by simp⟩ fun b => by
    rw [h3, List.mem_singleton]
    constructor
    · exact fun h => (popcount_eq_zero hA.le32 h.1).1 h.2
    · rintro rfl; exact ⟨by positivity, (popcount_eq_zero hA.le32 (by positivity)).2 rfl⟩
  subst this
  exact ⟨h1, h2⟩

theorem upcast_gives (hA : WfAlg A) (c : R) : Gives A (MV.upcast A (.num c)) (algebraMap R _ c) := by
  obtain ⟨h1, h2⟩ := scalar_eq hA
  rw [MV.upcast, h1]
  refine ⟨⟨⟨[0]⟩, [c]⟩, rfl, ⟨h2, rfl⟩, ?_⟩
  simp [val, denote, blade_zero, Algebra.algebraMap_eq_smul_one]

end Verif
