import Verif.Proofs.Factory2
/-! # What the composed operators of the factory compute -/
namespace Verif
open Model Spec Model.Factory

variable {A : Alg}

/-! ### unary and binary operators as maps on arguments -/

/-- A unary factory function composes its argument with `L`. -/
def UnSem (A : Alg) (f : Arg Int → Option (Operator Int)) (L : ∀ (R : Type) [CommRing R], Cl A R → Cl A R) : Prop :=
  ∀ ⦃v : Arg Int⦄ ⦃I : List SubSpace⦄ ⦃C : Cond A⦄ ⦃F : Fn A⦄, ArgSem A v I C F →
    Sem A (f v) I C (fun R _ ds => L R (F R ds))

/-- A binary factory function combines its arguments with `B`. -/
def BinSem (A : Alg) (f : Arg Int → Arg Int → Option (Operator Int)) (B : ∀ (R : Type) [CommRing R], Cl A R → Cl A R → Cl A R) : Prop :=
  ∀ ⦃l r : Arg Int⦄ ⦃I J : List SubSpace⦄ ⦃C D : Cond A⦄ ⦃F G : Fn A⦄, ArgSem A l I C F → ArgSem A r J D G →
    Sem A (f l r) (I ++ J) (fun R _ ds => C R (ds.take I.length) ∧ D R (ds.drop I.length))
      (fun R _ ds => B R (F R (ds.take I.length)) (G R (ds.drop I.length)))

theorem UnSem.congr {f : Arg Int → Option (Operator Int)} {L L' : ∀ (R : Type) [CommRing R], Cl A R → Cl A R}
    (h : UnSem A f L) (e : ∀ (R : Type) [CommRing R] (x : Cl A R), L R x = L' R x) : UnSem A f L' :=
  fun _ _ _ _ hv => (h hv).congr fun _ _ _ _ hC => ⟨hC, e _ _⟩

theorem BinSem.congr {f : Arg Int → Arg Int → Option (Operator Int)} {B B' : ∀ (R : Type) [CommRing R], Cl A R → Cl A R → Cl A R}
    (h : BinSem A f B) (e : ∀ (R : Type) [CommRing R] (x y : Cl A R), B R x y = B' R x y) : BinSem A f B' :=
  fun _ _ _ _ _ _ _ _ hl hr => (h hl hr).congr fun _ _ _ _ hC => ⟨hC, e _ _ _⟩

/-- `g(f(l, r))`. -/
theorem BinSem.post {f : Arg Int → Arg Int → Option (Operator Int)} {B : ∀ (R : Type) [CommRing R], Cl A R → Cl A R → Cl A R}
    (h : BinSem A f B) {g : Arg Int → Option (Operator Int)} {L : ∀ (R : Type) [CommRing R], Cl A R → Cl A R} (hg : UnSem A g L) :
    BinSem A (fun l r => (f l r).bind fun o => g (.op o)) (fun R _ x y => L R (B R x y)) :=
  fun _ _ _ _ _ _ _ _ hl hr => (h hl hr).bind_arg fun _ _ ha => hg ha

/-- `f(g(l), r)`. -/
theorem BinSem.left {f : Arg Int → Arg Int → Option (Operator Int)} {B : ∀ (R : Type) [CommRing R], Cl A R → Cl A R → Cl A R}
    (h : BinSem A f B) {g : Arg Int → Option (Operator Int)} {L : ∀ (R : Type) [CommRing R], Cl A R → Cl A R} (hg : UnSem A g L) :
    BinSem A (fun l r => (g l).bind fun o => f (.op o) r) (fun R _ x y => B R (L R x) y) :=
  fun _ _ _ _ _ _ _ _ hl hr => (hg hl).bind_arg fun _ _ ha => h ha hr

/-- `f(l, g(r))`. -/
theorem BinSem.right {f : Arg Int → Arg Int → Option (Operator Int)} {B : ∀ (R : Type) [CommRing R], Cl A R → Cl A R → Cl A R}
    (h : BinSem A f B) {g : Arg Int → Option (Operator Int)} {L : ∀ (R : Type) [CommRing R], Cl A R → Cl A R} (hg : UnSem A g L) :
    BinSem A (fun l r => (g r).bind fun o => f l (.op o)) (fun R _ x y => B R x (L R y)) :=
  fun _ _ _ _ _ _ _ _ hl hr => (hg hr).bind_arg fun _ _ ha => h hl ha

/-- `f(l, r).squeeze()`. -/
theorem BinSem.squeeze (hA : WfAlg A) {f : Arg Int → Arg Int → Option (Operator Int)}
    {B : ∀ (R : Type) [CommRing R], Cl A R → Cl A R → Cl A R} (h : BinSem A f B) :
    BinSem A (fun l r => (f l r).bind (·.squeeze A)) B :=
  fun _ _ _ _ _ _ _ _ hl hr => (h hl hr).squeeze hA

/-- `g(f(v))`. -/
theorem UnSem.comp {f g : Arg Int → Option (Operator Int)} {L M : ∀ (R : Type) [CommRing R], Cl A R → Cl A R}
    (hf : UnSem A f L) (hg : UnSem A g M) : UnSem A (fun v => (f v).bind fun o => g (.op o)) (fun R _ x => M R (L R x)) :=
  fun _ _ _ _ hv => (hf hv).bind_arg fun _ _ ha => hg ha

/-! ### the unary operators -/

/-- Right complement, on elements. -/
noncomputable def rcMap (A : Alg) (R : Type) [CommRing R] : Cl A R →ₗ[R] Cl A R :=
  compl A R fun b => swapSign A b A.pss * negSign A b
/-- Left complement, on elements. -/
noncomputable def lcMap (A : Alg) (R : Type) [CommRing R] : Cl A R →ₗ[R] Cl A R :=
  compl A R fun b => swapSign A A.pss b * negSign A b
/-- Right Hodge dual, on elements. -/
noncomputable def rhMap (A : Alg) (R : Type) [CommRing R] : Cl A R →ₗ[R] Cl A R := compl A R (hodgeSign A)
/-- Inverse of the right Hodge dual, on elements. -/
noncomputable def rhInv (A : Alg) (R : Type) [CommRing R] : Cl A R →ₗ[R] Cl A R := compl A R fun b => hodgeSign A (b ^^^ A.pss)

theorem reverse_un (hA : WfAlg A) : UnSem A (reverse A) fun _ _ x => CliffordAlgebra.reverse x := fun _ _ _ _ hv => reverse_sem hA hv
theorem involute_un (hA : WfAlg A) : UnSem A (involute A) fun _ _ x => CliffordAlgebra.involute x := fun _ _ _ _ hv => involute_sem hA hv
theorem conjugate_un (hA : WfAlg A) : UnSem A (conjugate A) fun _ _ x => CliffordAlgebra.involute (CliffordAlgebra.reverse x) :=
  fun _ _ _ _ hv => conjugate_sem hA hv
theorem rightComplement_un (hA : WfAlg A) : UnSem A (rightComplement A) fun R _ x => rcMap A R x := fun _ _ _ _ hv => rightComplement_sem hA hv
theorem leftComplement_un (hA : WfAlg A) : UnSem A (leftComplement A) fun R _ x => lcMap A R x := fun _ _ _ _ hv => leftComplement_sem hA hv
theorem rightHodge_un (hA : WfAlg A) : UnSem A (rightHodge A) fun R _ x => rhMap A R x := fun _ _ _ _ hv => rightHodge_sem hA hv
theorem rightHodgeInverse_un (hA : WfAlg A) : UnSem A (rightHodgeInverse A) fun R _ x => rhInv A R x :=
  fun _ _ _ _ hv => rightHodgeInverse_sem hA hv

theorem rh_rhInv {R : Type} [CommRing R] (x : Cl A R) : rhMap A R (rhInv A R x) = x := (compl_compl _ (hodgeSign_sq A) x).2
theorem rhInv_rh {R : Type} [CommRing R] (x : Cl A R) : rhInv A R (rhMap A R x) = x := (compl_compl _ (hodgeSign_sq A) x).1

theorem gradesMap_eq (S : SubSpace) (f : Nat → Int) : (S.grades A).map f = S.blades.map fun b => f (A.grade b) := by
  simp [SubSpace.grades]

theorem scalarNegation_un (hA : WfAlg A) : UnSem A (scalarNegation A) fun R _ x => 2 • gradePart A R 0 x - x := by
  intro v I C F hv
  rw [scalarNegation, gradesMap_eq]
  refine (diagonal_sem hv _ (fun R _ => (2 • gradePart A R 0 - LinearMap.id)) ?_).congr ?_
  · intro R _ b hb
    have hb' := (args_ins_subspace hv.1).lt b hb
    simp only [LinearMap.sub_apply, LinearMap.smul_apply, LinearMap.id_apply]
    rw [gradePart_blade _ hb', grade_popcount hA hb']
    by_cases h : popcount b = 0
    · rw [if_pos h, if_neg (by omega)]
      simp only [parityToSign]
      module
    · rw [if_neg h, if_pos (by omega)]
      norm_num [parityToSign]
  · intro R _ ds _ hC
    exact ⟨hC, by simp⟩

theorem pseudoscalarNegation_un (hA : WfAlg A) :
    UnSem A (pseudoscalarNegation A) fun R _ x =>
      2 • (gradePart A R 0 x + if A.n = 0 then 0 else gradePart A R A.n x) - x := by
  intro v I C F hv
  rw [pseudoscalarNegation, gradesMap_eq]
  refine (diagonal_sem hv _ (fun R _ => (2 • (gradePart A R 0 + if A.n = 0 then 0 else gradePart A R A.n) - LinearMap.id)) ?_).congr ?_
  · intro R _ b hb
    have hb' := (args_ins_subspace hv.1).lt b hb
    have hle := popcount_le hA.le32 hb'
    have hn : (if A.n = 0 then (0 : Cl A R →ₗ[R] Cl A R) else gradePart A R A.n) (blade A R b) =
        if A.n ≠ 0 ∧ popcount b = A.n then blade A R b else 0 := by
      by_cases h : A.n = 0
      · simp [h]
      · rw [if_neg h, gradePart_blade _ hb']; simp [h]
    simp only [LinearMap.sub_apply, LinearMap.smul_apply, LinearMap.add_apply, LinearMap.id_apply]
    rw [gradePart_blade _ hb', hn, grade_popcount hA hb']
    by_cases h : popcount b = 0 ∨ popcount b = A.n
    · rw [if_pos h]
      have : (if popcount b = 0 then blade A R b else 0) + (if A.n ≠ 0 ∧ popcount b = A.n then blade A R b else 0) = blade A R b := by
        by_cases h0 : popcount b = 0
        · rw [if_pos h0, if_neg (by omega), add_zero]
        · rw [if_neg h0, if_pos (by omega), zero_add]
      rw [this, show (-parityToSign 1 : Int) = 1 from rfl, Int.cast_one, one_smul, two_nsmul, add_sub_cancel_right]
    · rw [if_neg h, if_neg (by tauto), if_neg (by tauto)]
      norm_num [parityToSign]
  · intro R _ ds _ hC
    refine ⟨hC, ?_⟩
    by_cases h : A.n = 0 <;> simp [h]

/-! ### the binary operators -/

theorem product_bin (hA : WfAlg A) : BinSem A (product A) fun _ _ x y => x * y := fun _ _ _ _ _ _ _ _ hl hr => product_sem hA hl hr

theorem makeProduct_bin (hA : WfAlg A) (formula : Int → Int → Int → Bool) :
    BinSem A (fun l r => makeProduct A l r formula) fun R _ x y => gradedProduct A R (fun i j k => formula i j k = true) x y :=
  fun _ _ _ _ _ _ _ _ hl hr => makeProduct_sem hA hl hr formula

theorem wedge_bin (hA : WfAlg A) : BinSem A (wedge A) fun R _ x y => gradedProduct A R (fun i j k => i + j = k) x y :=
  (makeProduct_bin hA _).congr fun _ _ _ _ => gradedProduct_congr fun i j k => by simp; omega
theorem inner_bin (hA : WfAlg A) : BinSem A (inner A) fun R _ x y => gradedProduct A R (fun i j k => i + k = j ∨ j + k = i) x y :=
  (makeProduct_bin hA _).congr fun _ _ _ _ => gradedProduct_congr fun i j k => by
    simp only [decide_eq_true_eq]
    rcases abs_cases ((i : Int) - j) with h | h <;> omega
theorem scalarProduct_bin (hA : WfAlg A) : BinSem A (scalarProduct A) fun R _ x y => gradedProduct A R (fun _ _ k => k = 0) x y :=
  (makeProduct_bin hA _).congr fun _ _ _ _ => gradedProduct_congr fun i j k => by simp; omega
theorem leftContraction_bin (hA : WfAlg A) :
    BinSem A (leftContraction A) fun R _ x y => gradedProduct A R (fun i j k => i + k = j) x y :=
  (makeProduct_bin hA _).congr fun _ _ _ _ => gradedProduct_congr fun i j k => by simp; omega
theorem rightContraction_bin (hA : WfAlg A) :
    BinSem A (rightContraction A) fun R _ x y => gradedProduct A R (fun i j k => j + k = i) x y :=
  (makeProduct_bin hA _).congr fun _ _ _ _ => gradedProduct_congr fun i j k => by simp; omega

theorem antify_bin (hA : WfAlg A) {f : Arg Int → Arg Int → Option (Operator Int)}
    {B : ∀ (R : Type) [CommRing R], Cl A R → Cl A R → Cl A R} (h : BinSem A f B) :
    BinSem A (antify A f) fun R _ x y => lcMap A R (B R (rcMap A R x) (rcMap A R y)) := by
  intro l r I J C D F G hl hr
  refine (rightComplement_un hA hl).bind_arg fun cl _ hcl => (rightComplement_un hA hr).bind_arg fun cr _ hcr => ?_
  have := ((h hcl hcr).bind_arg fun _ _ ha => leftComplement_un hA ha).squeeze hA
  simpa only [Option.bind_eq_bind, Option.bind_assoc] using this

theorem antiProduct_bin (hA : WfAlg A) : BinSem A (antiProduct A) fun R _ x y => lcMap A R (rcMap A R x * rcMap A R y) :=
  antify_bin hA (product_bin hA)
theorem antiWedge_bin (hA : WfAlg A) : BinSem A (antiWedge A) fun R _ x y =>
    lcMap A R (gradedProduct A R (fun i j k => i + j = k) (rcMap A R x) (rcMap A R y)) := antify_bin hA (wedge_bin hA)
theorem antiInner_bin (hA : WfAlg A) : BinSem A (antiInner A) fun R _ x y =>
    lcMap A R (gradedProduct A R (fun i j k => i + k = j ∨ j + k = i) (rcMap A R x) (rcMap A R y)) := antify_bin hA (inner_bin hA)
theorem antiScalar_bin (hA : WfAlg A) : BinSem A (antiScalar A) fun R _ x y =>
    lcMap A R (gradedProduct A R (fun _ _ k => k = 0) (rcMap A R x) (rcMap A R y)) := antify_bin hA (scalarProduct_bin hA)

theorem leftInterior_bin (hA : WfAlg A) : BinSem A (leftInterior A) fun R _ x y =>
    lcMap A R (gradedProduct A R (fun i j k => i + j = k) (rcMap A R (lcMap A R x)) (rcMap A R y)) := by
  have := ((antiWedge_bin hA).left (leftComplement_un hA)).squeeze hA
  simp only [Option.bind_assoc] at this
  exact this
theorem rightInterior_bin (hA : WfAlg A) : BinSem A (rightInterior A) fun R _ x y =>
    lcMap A R (gradedProduct A R (fun i j k => i + j = k) (rcMap A R x) (rcMap A R (rcMap A R y))) := by
  have := ((antiWedge_bin hA).right (rightComplement_un hA)).squeeze hA
  simp only [Option.bind_assoc] at this
  exact this

theorem regressive_bin (hA : WfAlg A) : BinSem A (regressive A) fun R _ x y =>
    rhInv A R (gradedProduct A R (fun i j k => i + j = k) (rhMap A R x) (rhMap A R y)) := by
  intro l r I J C D F G hl hr
  refine (rightHodge_un hA hl).bind_arg fun cl _ hcl => (rightHodge_un hA hr).bind_arg fun cr _ hcr => ?_
  have := (((wedge_bin hA) hcl hcr).bind_arg fun _ _ ha => rightHodgeInverse_un hA ha).squeeze hA
  simpa only [Option.bind_eq_bind, Option.bind_assoc] using this

theorem cross_bin (hA : WfAlg A) : BinSem A (cross A) fun R _ x y =>
    rhMap A R (gradedProduct A R (fun i j k => i + j = k) x y) := by
  have := ((wedge_bin hA).post (rightHodge_un hA)).squeeze hA
  simp only [Option.bind_assoc] at this
  exact this

theorem reverseProduct_bin (hA : WfAlg A) : BinSem A (reverseProduct A) fun _ _ x y => x * CliffordAlgebra.reverse y :=
  (product_bin hA).right (reverse_un hA)
theorem involuteProduct_bin (hA : WfAlg A) : BinSem A (involuteProduct A) fun _ _ x y => x * CliffordAlgebra.involute y :=
  (product_bin hA).right (involute_un hA)
theorem conjugateProduct_bin (hA : WfAlg A) :
    BinSem A (conjugateProduct A) fun _ _ x y => x * CliffordAlgebra.involute (CliffordAlgebra.reverse y) :=
  (product_bin hA).right (conjugate_un hA)
theorem scalarNegationProduct_bin (hA : WfAlg A) :
    BinSem A (scalarNegationProduct A) fun R _ x y => x * (2 • gradePart A R 0 y - y) :=
  (product_bin hA).right (scalarNegation_un hA)
theorem pseudoscalarNegationProduct_bin (hA : WfAlg A) :
    BinSem A (pseudoscalarNegationProduct A) fun R _ x y =>
      x * (2 • (gradePart A R 0 y + if A.n = 0 then 0 else gradePart A R A.n y) - y) :=
  (product_bin hA).right (pseudoscalarNegation_un hA)
theorem antiReverseProduct_bin (hA : WfAlg A) : BinSem A (antiReverseProduct A) fun R _ x y =>
    lcMap A R (rcMap A R x * CliffordAlgebra.reverse (rcMap A R y)) :=
  antify_bin hA (f := reverseProduct A) (B := fun _ _ x y => x * CliffordAlgebra.reverse y) (reverseProduct_bin hA)

theorem nProduct_sem (hA : WfAlg A) {l r : Arg Int} {I J : List SubSpace} {C D : Cond A} {F G : Fn A}
    (hl : ArgSem A l I C F) (hr : ArgSem A r J D G) {o : SubSpace} (ho : WfSub A o) :
    Sem A (nProduct A l r o) (I ++ J) (fun R _ ds => C R (ds.take I.length) ∧ D R (ds.drop I.length))
      (fun R _ ds => proj A R (· ∈ o.blades) (F R (ds.take I.length) * G R (ds.drop I.length))) := by
  rw [nProduct]
  apply (product_bin hA hl hr).bind_arg
  intro gp _ hgp
  obtain ⟨op, T, _, t2, t3, t4, _, t6⟩ := restrict_sem hA (i := gp.output) (args_ins_subspace hgp.1) ho
  rw [t2, Option.bind_eq_bind, Option.bind_some]
  have := Sem.build1 (a := .op gp) t3 t4 t6 hgp
  exact this

/-! ### self-products -/

theorem BinSem.self2 (hA : WfAlg A) {f : Arg Int → Arg Int → Option (Operator Int)}
    {B : ∀ (R : Type) [CommRing R], Cl A R → Cl A R → Cl A R} (h : BinSem A f B) {S : SubSpace} (hS : WfSub A S) :
    Sem A ((f (.sub S) (.sub S)).bind (·.symmetry A [0, 1])) [S, S] (Cond.eqOn A [0, 1])
      (fun R _ ds => B R (ds.headD 0) (ds.headD 0)) := by
  refine ((h (argSem_sub hS) (argSem_sub hS)).symmetry hA (axes := [0, 1]) (by simp) (by simp) (T := S) (by simp)).congr ?_
  intro R _ ds hl hC
  match ds, hl with
  | [x, y], _ =>
    have := hC 0 (by simp) 1 (by simp)
    simp at this
    subst this
    exact ⟨⟨⟨trivial, trivial⟩, hC⟩, rfl⟩

theorem symmetricReverse_sem (hA : WfAlg A) {S : SubSpace} (hS : WfSub A S) :
    Sem A (symmetricReverse A (.sub S)) [S, S] (Cond.eqOn A [0, 1])
      (fun _ _ ds => ds.headD 0 * CliffordAlgebra.reverse (ds.headD 0)) := (reverseProduct_bin hA).self2 hA hS
theorem symmetricInvolute_sem (hA : WfAlg A) {S : SubSpace} (hS : WfSub A S) :
    Sem A (symmetricInvolute A (.sub S)) [S, S] (Cond.eqOn A [0, 1])
      (fun _ _ ds => ds.headD 0 * CliffordAlgebra.involute (ds.headD 0)) := (involuteProduct_bin hA).self2 hA hS
theorem symmetricConjugate_sem (hA : WfAlg A) {S : SubSpace} (hS : WfSub A S) :
    Sem A (symmetricConjugate A (.sub S)) [S, S] (Cond.eqOn A [0, 1])
      (fun _ _ ds => ds.headD 0 * CliffordAlgebra.involute (CliffordAlgebra.reverse (ds.headD 0))) :=
  (conjugateProduct_bin hA).self2 hA hS
theorem symmetricScalarNegation_sem (hA : WfAlg A) {S : SubSpace} (hS : WfSub A S) :
    Sem A (symmetricScalarNegation A (.sub S)) [S, S] (Cond.eqOn A [0, 1])
      (fun R _ ds => ds.headD 0 * (2 • gradePart A R 0 (ds.headD 0) - ds.headD 0)) :=
  (scalarNegationProduct_bin hA).self2 hA hS
theorem symmetricPseudoscalarNegation_sem (hA : WfAlg A) {S : SubSpace} (hS : WfSub A S) :
    Sem A (symmetricPseudoscalarNegation A (.sub S)) [S, S] (Cond.eqOn A [0, 1])
      (fun R _ ds => ds.headD 0 *
        (2 • (gradePart A R 0 (ds.headD 0) + if A.n = 0 then 0 else gradePart A R A.n (ds.headD 0)) - ds.headD 0)) :=
  (pseudoscalarNegationProduct_bin hA).self2 hA hS
theorem squared_sem (hA : WfAlg A) {S : SubSpace} (hS : WfSub A S) :
    Sem A (squared A (.sub S)) [S, S] (Cond.eqOn A [0, 1]) (fun _ _ ds => ds.headD 0 * ds.headD 0) :=
  (product_bin hA).self2 hA hS

/-- All elements of the list are equal. -/
theorem eqOn_range (R : Type) [CommRing R] (n : Nat) {ds : List (Cl A R)} (hl : ds.length = n)
    (h : Cond.eqOn A (List.range n) R ds) : ds = List.replicate n (ds.headD 0) := by
  apply List.ext_getElem (by simp [hl])
  intro i h1 h2
  have := h i (by simp; omega) 0 (by simp; omega)
  rw [getD_lt _ _ h1] at this
  rw [this]
  cases ds <;> simp

theorem cubed_sem (hA : WfAlg A) {S : SubSpace} (hS : WfSub A S) :
    Sem A (cubed A (.sub S)) [S, S, S] (Cond.eqOn A [0, 1, 2]) (fun _ _ ds => ds.headD 0 * ds.headD 0 * ds.headD 0) := by
  refine ((squared_sem hA hS).bind_arg (k := fun o => (product A (.op o) (.sub S)).bind (·.symmetry A [0, 1, 2])) fun sq _ hsq =>
    (product_bin hA hsq (argSem_sub hS)).symmetry hA (axes := [0, 1, 2]) (by simp) (by simp) (T := S) (by simp)).congr ?_
  intro R _ ds hl hC
  have e := eqOn_range R 3 hl hC
  generalize ds.headD 0 = x at e
  subst e
  exact ⟨⟨⟨by intro a ha b hb; simp at ha hb; rcases ha with rfl | rfl <;> rcases hb with rfl | rfl <;> rfl, trivial⟩, hC⟩, rfl⟩

theorem inverseFactor_sem (hA : WfAlg A) {S : SubSpace} (hS : WfSub A S) :
    Sem A (inverseFactor A (.sub S)) [S, S, S] (Cond.eqOn A [0, 1, 2])
      (fun _ _ ds => CliffordAlgebra.reverse (ds.headD 0) *
        CliffordAlgebra.involute (CliffordAlgebra.reverse (ds.headD 0 * CliffordAlgebra.reverse (ds.headD 0)))) := by
  refine ((symmetricReverse_sem hA hS).bind_arg fun p _ hp => (reverse_un hA (argSem_sub hS)).bind_arg fun r _ hr =>
    (conjugate_un hA hp).bind_arg fun q _ hq =>
    (product_bin hA hr hq).symmetry hA (axes := [0, 1, 2]) (by simp) (by simp) (T := S) (by simp)).congr ?_
  intro R _ ds hl hC
  have e := eqOn_range R 3 hl hC
  generalize ds.headD 0 = x at e
  subst e
  exact ⟨⟨⟨trivial, by intro a ha b hb; simp at ha hb; rcases ha with rfl | rfl <;> rcases hb with rfl | rfl <;> rfl⟩, hC⟩, rfl⟩

/-! ### sandwiches -/

/-- The condition of the sandwich: first and last arguments are equal. -/
theorem fullSandwich_sem (hA : WfAlg A) {S V : SubSpace} (hS : WfSub A S) (hV : WfSub A V) :
    Sem A (fullSandwich A (.sub S) (.sub V)) [S, V, S] (Cond.eqOn A [0, 2])
      (fun _ _ ds => ds.getD 0 0 * ds.getD 1 0 * CliffordAlgebra.reverse (ds.getD 0 0)) := by
  refine ((product_bin hA (argSem_sub hS) (argSem_sub hV)).bind_arg fun p _ hp => (reverse_un hA (argSem_sub hS)).bind_arg fun r _ hr =>
    (product_bin hA hp hr).symmetry hA (axes := [0, 2]) (by simp) (by simp) (T := S) (by simp)).congr ?_
  intro R _ ds hl hC
  match ds, hl with
  | [x, y, z], _ =>
    have := hC 0 (by simp) 2 (by simp)
    simp at this
    subst this
    exact ⟨⟨⟨⟨trivial, trivial⟩, trivial⟩, hC⟩, rfl⟩

end Verif
