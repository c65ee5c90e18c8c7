import Verif.Proofs.Inverse2
import Verif.Proofs.LogExp
/-! # Inverses stay in subalgebras -/
namespace Verif
open Model Spec Factory Props

variable {A : Alg}

theorem wf_kVector (hA : WfAlg A) {g : Int} {S : SubSpace} (h : A.kVector g = some S) : WfSub A S := by
  cases hp : pyIndex (A.n + 1) g with
  | none => simp [Alg.kVector, Alg.fromGrades, hp] at h
  | some k =>
    obtain ⟨T, t1, t2⟩ := kVector_isSpace hA ((pyIndex_iff A.n g k).1 hp)
    cases h.symm.trans t1
    exact t2.1

section ring
variable {R : Type} [CommRing R]

/-- A subspace of `U`, of a well-formed multivector. -/
def In (A : Alg) (U : SubSpace) (x : MV R) : Prop := WfMV A x ∧ SubOf x.sub U

theorem product_in (hA : WfAlg A) {U : SubSpace} (hU : WfSub A U) (hc : Closed A U) {x y z : MV R} (hx : In A U x) (hy : In A U y)
    (h : x.product A y = some z) : In A U z := by
  obtain ⟨z', z1, z2, _⟩ := product_gives hA hx.1 hy.1
  cases h.symm.trans z1
  refine ⟨z2, ?_⟩
  rw [MV.product] at h
  obtain ⟨op, o1, _⟩ := product_bin hA (argSem_sub hx.1.sub) (argSem_sub hy.1.sub)
  rw [o1] at h
  obtain ⟨V, u1, _, u3⟩ := product_space hA hx.1.sub hy.1.sub
  rw [SubSpace.product, o1] at u1
  rw [call_sub h, show op.output = V by simpa using u1]
  intro b hb
  obtain ⟨a, ha, c, hc', rfl, hs⟩ := (u3 b).1 hb
  exact (closed_iff hA hU).1 hc a (hx.2 a ha) c (hy.2 c hc') hs

theorem nProduct_in (hA : WfAlg A) {U E : SubSpace} (hU : WfSub A U) (hc : Closed A U) (hE : WfSub A E) {x y z : MV R} (hx : In A U x)
    (hy : In A U y) (h : MV.call (nProduct A (.sub x.sub) (.sub y.sub) E) [x, y] = some z) : In A U z := by
  obtain ⟨gp, g1, g2, g3, g4⟩ := id (product_bin hA (argSem_sub hx.1.sub) (argSem_sub hy.1.sub))
  obtain ⟨op, T, _, t2, t3, t4, t5, t6⟩ := restrict_sem hA (i := gp.output) g2.wf_output hE
  obtain ⟨h', e1, e2, e3, _⟩ := build_apply [.op gp] (fun a ha => by rw [List.mem_singleton.1 ha]; exact g2) op t3 (Q := []) (O := T) t4
  have e : nProduct A (.sub x.sub) (.sub y.sub) E = some h' := by
    rw [nProduct, g1, Option.bind_eq_bind, Option.bind_some, t2]
    exact e1
  rw [e] at h
  have hs := call_sub h
  have hz : WfMV A z := by
    rw [MV.call, Option.bind_eq_bind, Option.bind_some] at h
    split at h
    · rw [MV.construct] at h
      split at h
      · rename_i hl
        cases h
        exact ⟨e2.wf_output, hl⟩
      · cases h
    · cases h
  obtain ⟨V, u1, _, u3⟩ := product_space hA hx.1.sub hy.1.sub
  rw [SubSpace.product, g1] at u1
  have hV : gp.output = V := by simpa using u1
  rw [Operator.output, e3] at hs
  refine ⟨hz, fun b hb => ?_⟩
  rw [hs] at hb
  have hb' := ((t5 b).1 (by simpa using hb)).2
  rw [hV] at hb'
  obtain ⟨a, ha, c, hc', rfl, hs'⟩ := (u3 b).1 hb'
  exact (closed_iff hA hU).1 hc a (hx.2 a ha) c (hy.2 c hc') hs'

/-- A unary operation that keeps the subspace. -/
theorem keep_in {f : Arg Int → Option (Operator Int)} {L : ∀ (R : Type) [CommRing R], Cl A R → Cl A R} (h : UnSem A f L)
    (ho : ∀ {S : SubSpace} {op : Operator Int}, WfSub A S → f (.sub S) = some op → op.output = S) {x : MV R} (hx : WfMV A x) :
    GivesIn A (MV.call (f (.sub x.sub)) [x]) x.sub (L R (val A x)) := by
  obtain ⟨z, z1, z2, z3⟩ := un_gives h hx
  refine ⟨z, z1, ?_, z2, z3⟩
  cases hf : f (.sub x.sub) with
  | none => rw [hf] at z1; cases z1
  | some op => rw [hf] at z1; rw [call_sub z1, ho hx.sub hf]

theorem within_mono {S U : SubSpace} (hS : WfSub A S) (hU : WfSub A U) (h : SubOf S U) {x : Cl A R} (hx : Within A S x) : Within A U x :=
  (within_iff hU).2 fun b hb hn => (within_iff hS).1 hx b hb fun hb' => hn (h b hb')

end ring

/-- `x * L x` stays in a subalgebra when `L` keeps subspaces. -/
theorem self_in (hA : WfAlg A) {U : SubSpace} (hU : WfSub A U) (hc : Closed A U) {f : SubSpace → Option SubSpace} {L : LinMap A}
    (h : SelfSem A f L) (hL : ∀ {x : Cl A ℤ}, Within A U x → Within A U (L ℤ x)) {S : SubSpace} (hS : WfSub A S) (hSU : SubOf S U) :
    ∃ T, f S = some T ∧ WfSub A T ∧ SubOf T U := by
  obtain ⟨T, t1, t2, _, t4⟩ := h S hS
  exact ⟨T, t1, t2, t4 U hU fun x hx => hc ℤ _ _ (within_mono hS hU hSU hx) (hL (within_mono hS hU hSU hx))⟩

theorem within_keep {f : Arg Int → Option (Operator Int)} {L : ∀ (R : Type) [CommRing R], Cl A R → Cl A R} (h : UnSem A f L)
    (ho : ∀ {S : SubSpace} {op : Operator Int}, WfSub A S → f (.sub S) = some op → op.output = S) {U : SubSpace} {x : Cl A ℤ}
    (hx : Within A U x) : Within A U (L ℤ x) := by
  obtain ⟨z, z1, z2, rfl⟩ := hx
  obtain ⟨w, _, w2, w3, w4⟩ := keep_in h ho z1
  exact ⟨w, w3, w2.trans z2, w4⟩

section field
variable {R : Type} [Field R] [DecidableEq R]

theorem scalar_in (hA : WfAlg A) {U : SubSpace} (h0 : 0 ∈ U.blades) {x : MV R} (hx : WfMV A x) (hs : x.sub = ⟨[0]⟩) : In A U x :=
  ⟨hx, fun b hb => by rw [hs] at hb; simp only [List.mem_singleton] at hb; exact hb ▸ h0⟩

theorem divideWith_in (hA : WfAlg A) {U : SubSpace} (hU : WfSub A U) (hc : Closed A U) {inv : MV R → Except Fail (MV R)} {x p y : MV R}
    (hx : In A U x) (hp : In A U p) (hi : ∀ {i}, inv p = .ok i → In A U i) (h : MV.divideWith A inv x p = .ok y) : In A U y := by
  rw [MV.divideWith, (scalar_eq hA).1, lift_some] at h
  simp only [bind, Except.bind] at h
  split at h
  · rw [MV.divValues] at h
    split at h
    · split at h
      · cases h
      · rw [MV.copy, MV.construct, if_pos (by simp [hx.1.len]), lift_some] at h
        cases h
        exact ⟨⟨hx.1.sub, by simp [hx.1.len]⟩, hx.2⟩
    · cases h
  · cases hip : inv p with
    | error e => rw [hip] at h; cases h
    | ok i =>
      rw [hip] at h
      simp only at h
      cases hxi : x.product A i with
      | none => rw [hxi] at h; cases h
      | some z =>
        rw [hxi, lift_some] at h
        cases h
        exact product_in hA hU hc hx (hi hip) hxi

/-- The pieces of one rule: numerator `q` and denominator `p` stay in the subalgebra. -/
theorem keep_run {U : SubSpace} {f : Arg Int → Option (Operator Int)} {L : ∀ (R : Type) [CommRing R], Cl A R → Cl A R} (h : UnSem A f L)
    (ho : ∀ {S : SubSpace} {op : Operator Int}, WfSub A S → f (.sub S) = some op → op.output = S) {x : MV R} (hx : In A U x) :
    ∃ q, MV.call (f (.sub x.sub)) [x] = some q ∧ In A U q := by
  obtain ⟨q, q1, q2, q3, _⟩ := keep_in h ho hx.1
  exact ⟨q, q1, q3, q2 ▸ hx.2⟩

theorem self_run (hA : WfAlg A) {U : SubSpace} (hU : WfSub A U) (hc : Closed A U) {f : Arg Int → Option (Operator Int)} {L : LinMap A}
    (h : SelfSem A (fun S => (f (.sub S)).map (·.output)) L) (hL : ∀ {x : Cl A ℤ}, Within A U x → Within A U (L ℤ x)) {x : MV R} {v : Cl A R}
    (hx : In A U x) (hg : Gives A (MV.call (f (.sub x.sub)) [x, x]) v) :
    ∃ p, MV.call (f (.sub x.sub)) [x, x] = some p ∧ In A U p := by
  obtain ⟨T, t1, t2, t3⟩ := self_in hA hU hc h hL hx.1.sub hx.2
  obtain ⟨p, p1, p2, p3, _⟩ := self_givesIn hg t1
  exact ⟨p, p1, p3, p2 ▸ t3⟩

theorem inverse_in (hA : WfAlg A) {U : SubSpace} (hU : WfSub A U) (hc : Closed A U) (h0 : 0 ∈ U.blades) (fuel : Nat) {x y : MV R}
    (hx : In A U x) (h : x.inverse A fuel = .ok y) : In A U y := by
  induction fuel generalizing x y with
  | zero => cases h
  | succ fuel ih =>
    obtain ⟨c1, c2, c3, c4, c5, c6⟩ := C38_values hA hx.1
    have hn : A.n ≠ 0 := by have := hA.pos; omega
    have hpsn : UnSem A (pseudoscalarNegation A) fun R _ x => 2 • (gradePart A R 0 x + gradePart A R A.n x) - x := by
      have := pseudoscalarNegation_un hA
      simpa only [if_neg hn] using this
    have d1 := keep_run (reverse_un hA) (fun hS h => reverse_output (A := A) (v := .sub _) hS h) hx
    have d2 := keep_run (involute_un hA) (fun hS h => involute_output (A := A) (v := .sub _) hS h) hx
    have d3 := keep_run (conjugate_un hA) (fun hS h => conjugate_output hA (argSem_sub hS) h) hx
    have d4 := keep_run (scalarNegation_un hA) (fun hS h => scalarNegation_output (A := A) (v := .sub _) hS h) hx
    have d5 := keep_run hpsn (fun hS h => pseudoscalarNegation_output (A := A) (v := .sub _) hS h) hx
    have e0 := self_run hA hU hc (f := Factory.squared A) (squared_self hA) (fun h => h) hx c1
    have e1 := self_run hA hU hc (f := Factory.symmetricReverse A) (symmetricReverse_self hA)
      (fun h => within_keep (reverse_un hA) (fun hS h => reverse_output (A := A) (v := .sub _) hS h) h) hx c2
    have e2 := self_run hA hU hc (f := Factory.symmetricInvolute A) (symmetricInvolute_self hA)
      (fun h => within_keep (involute_un hA) (fun hS h => involute_output (A := A) (v := .sub _) hS h) h) hx c3
    have e3 := self_run hA hU hc (f := Factory.symmetricConjugate A) (symmetricConjugate_self hA)
      (fun h => within_keep (conjugate_un hA) (fun hS h => conjugate_output hA (argSem_sub hS) h) h) hx c4
    have e4 := self_run hA hU hc (f := Factory.symmetricScalarNegation A) (symmetricScalarNegation_self hA)
      (fun {w} h => by
        have := within_keep (scalarNegation_un hA) (fun hS h => scalarNegation_output (A := A) (v := .sub _) hS h) h
        simpa only [LinearMap.sub_apply, LinearMap.smul_apply, LinearMap.id_apply, ofNat_smul_eq_nsmul] using this) hx c5
    have e5 := self_run hA hU hc (f := Factory.symmetricPseudoscalarNegation A) (symmetricPseudoscalarNegation_self hA)
      (fun {w} h => by
        have := within_keep hpsn (fun hS h => pseudoscalarNegation_output (A := A) (v := .sub _) hS h) h
        simpa only [LinearMap.sub_apply, LinearMap.smul_apply, LinearMap.add_apply, LinearMap.id_apply, ofNat_smul_eq_nsmul] using this) hx c6
    have hdiv : ∀ {q p : MV R}, In A U q → In A U p → MV.divideWith A (MV.inverse A fuel) q p = .ok y → In A U y :=
      fun hq hp h => divideWith_in hA hU hc hq hp (fun hi => ih hp hi) h
    rw [MV.inverse] at h
    split at h
    · cases h
    · rename_i rule _
      cases rule <;> simp only [MV.runInverse] at h
      · rw [(scalar_eq hA).1, lift_some] at h
        simp only [bind, Except.bind] at h
        have hs : WfMV A (MV.default ⟨[0]⟩ : MV R) := ⟨(scalar_eq hA).2, rfl⟩
        obtain ⟨u, u1, u2, u3⟩ := upcast_gives (R := R) hA 0
        have hus : u.sub = ⟨[0]⟩ := by rw [MV.upcast, (scalar_eq hA).1] at u1; simp [MV.construct] at u1; rw [← u1]
        obtain ⟨z, z1, _⟩ := product_gives hA hs u2
        have hm : (MV.default ⟨[0]⟩ : MV R).mul A (.num 0) = some z := by rw [MV.mul, u1]; exact z1
        rw [hm, lift_some] at h
        have si := scalar_in hA h0 hs rfl
        exact hdiv si (product_in hA hU hc si (scalar_in hA h0 u2 hus) z1) h
      · split at h
        · split at h
          · cases h
          · rename_i c hc' _
            have hl : [1 / c].length = x.sub.blades.length := by rw [← hx.1.len, hc']; rfl
            rw [MV.copy, MV.construct, if_pos hl, lift_some] at h
            cases h
            exact ⟨⟨hx.1.sub, hl⟩, hx.2⟩
        · cases h
      · obtain ⟨p, p1, p2⟩ := e0
        rw [MV.squared, p1] at h
        exact hdiv hx p2 h
      · obtain ⟨p, p1, p2⟩ := e1
        obtain ⟨q, q1, q2⟩ := d1
        rw [MV.symmetricReverse, p1, MV.reverse, q1] at h
        exact hdiv q2 p2 h
      · obtain ⟨p, p1, p2⟩ := e3
        obtain ⟨q, q1, q2⟩ := d3
        rw [MV.symmetricConjugate, p1, MV.conjugate, q1] at h
        exact hdiv q2 p2 h
      · obtain ⟨p, p1, p2⟩ := e4
        obtain ⟨q, q1, q2⟩ := d4
        rw [MV.symmetricScalarNegation, p1, MV.scalarNegation, q1] at h
        exact hdiv q2 p2 h
      · obtain ⟨p, p1, p2⟩ := e5
        obtain ⟨q, q1, q2⟩ := d5
        rw [MV.symmetricPseudoscalarNegation, p1, MV.pseudoscalarNegation, q1] at h
        exact hdiv q2 p2 h
      · obtain ⟨p, p1, p2⟩ := e2
        obtain ⟨q, q1, q2⟩ := d2
        rw [MV.symmetricInvolute, p1, MV.involute, q1] at h
        exact hdiv q2 p2 h
      · obtain ⟨p, p1, p2⟩ := e1
        rw [MV.symmetricReverse, p1] at h
        simp only [bind, Except.bind, lift_some] at h
        cases hi : MV.inverse A fuel p with
        | error e => rw [hi] at h; cases h
        | ok i =>
          rw [hi] at h
          have ii := ih p2 hi
          obtain ⟨j, j1, j2, j3, _⟩ := C44_neg ii.1
          simp only [j1, lift_some] at h
          cases hz : x.bivectorProduct A j with
          | none => rw [hz] at h; cases h
          | some z =>
            rw [hz] at h
            cases h
            cases hE : A.bivector with
            | none => rw [MV.bivectorProduct, Factory.bivectorProduct, hE] at hz; cases hz
            | some E =>
              rw [MV.bivectorProduct, Factory.bivectorProduct, hE] at hz
              exact nProduct_in hA hU hc (wf_kVector hA hE) hx ⟨j3, j2 ▸ ii.2⟩ hz
      · obtain ⟨p, p1, p2⟩ := e0
        rw [MV.squared, p1] at h
        simp only [bind, Except.bind, lift_some] at h
        cases hi : MV.inverse A fuel p with
        | error e => rw [hi] at h; cases h
        | ok i =>
          rw [hi] at h
          have ii := ih p2 hi
          simp only at h
          cases hz : x.trivectorProduct A i with
          | none => rw [hz] at h; cases h
          | some z =>
            rw [hz] at h
            cases h
            cases hE : A.kVector 3 with
            | none => rw [MV.trivectorProduct, hE] at hz; cases hz
            | some E =>
              rw [MV.trivectorProduct, hE] at hz
              exact nProduct_in hA hU hc (wf_kVector hA hE) hx ii hz

end field
end Verif
