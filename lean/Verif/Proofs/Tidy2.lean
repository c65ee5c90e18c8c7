import Verif.Proofs.Tidy
import Verif.Spec.Kernel
import Verif.Props.Subspace
/-! # Every factory function produces tidy operators -/
namespace Verif
open Model Spec Model.Factory
variable {A : Alg}

/-- A unary function that keeps operators tidy. -/
def GoodUn (A : Alg) (f : Arg Int → Option (Operator Int)) : Prop := ∀ v, GoodArg A v → GoodRes A (f v)
/-- A binary function that keeps operators tidy. -/
def GoodBin (A : Alg) (f : Arg Int → Arg Int → Option (Operator Int)) : Prop :=
  ∀ l r, GoodArg A l → GoodArg A r → GoodRes A (f l r)

theorem good_sub {S : SubSpace} (h : WfSub A S) : GoodArg A (.sub S) := ⟨0, h, rfl⟩
theorem GoodArg.wf {v : Arg Int} (h : GoodArg A v) : WfArg A v := h.choose_spec.wf
theorem GoodArg.sub {v : Arg Int} (h : GoodArg A v) : WfSub A v.subspace := args_ins_subspace h.wf

theorem GoodRes.squeeze (hA : WfAlg A) {r : Option (Operator Int)} (h : GoodRes A r) : GoodRes A (r.bind (·.squeeze A)) :=
  GoodRes.bind fun _ e => by obtain ⟨c, hc⟩ := h _ e; exact (Tidy.squeeze hA hc).good
theorem GoodRes.symmetry (hA : WfAlg A) {r : Option (Operator Int)} (h : GoodRes A r) (axes : List Nat) :
    GoodRes A (r.bind (·.symmetry A axes)) :=
  GoodRes.bind fun _ e => by obtain ⟨c, hc⟩ := h _ e; exact (Tidy.symmetry hA hc axes).good

theorem diagonal_good {v : Arg Int} (hv : GoodArg A v) {w : List Int} (hl : w.length = v.subspace.blades.length)
    (hw : ∀ x ∈ w, x = 1 ∨ x = -1) : GoodRes A (diagonal v w) := by
  obtain ⟨c, hc⟩ := hv
  exact (diagonal_tidy hc hl hw).good

theorem scalarNegation_good : GoodUn A (scalarNegation A) := fun _ hv =>
  diagonal_good hv (by simp [SubSpace.grades]) (sign_mem _)
theorem pseudoscalarNegation_good : GoodUn A (pseudoscalarNegation A) := fun _ hv =>
  diagonal_good hv (by simp [SubSpace.grades]) (by
    intro x hx
    obtain ⟨a, -, rfl⟩ := List.mem_map.1 hx
    rcases parityToSign_mem (if a = 0 ∨ a = A.n then 1 else 0) with h | h <;> rw [h] <;> simp)
theorem reverse_good : GoodUn A (Factory.reverse A) := fun _ hv => diagonal_good hv (by simp) (sign_mem _)
theorem involute_good : GoodUn A (Factory.involute A) := fun _ hv => diagonal_good hv (by simp) (by
    intro x hx
    obtain ⟨a, -, rfl⟩ := List.mem_map.1 hx
    exact parityToSign_mem _)
theorem conjugate_good : GoodUn A (conjugate A) := fun v hv => by
  rw [conjugate]
  exact GoodRes.bind fun _ e => involute_good _ (reverse_good v hv _ e)

theorem negSign_mem (b : Nat) : negSign A b = 1 ∨ negSign A b = -1 := parityToSign_mem _
theorem swapSign_mem (a b : Nat) : swapSign A a b = 1 ∨ swapSign A a b = -1 := parityToSign_mem _


theorem rightComplement_tidy (hA : WfAlg A) {c : Nat} {v : Arg Int} (hv : TidyArg A c v) :
    TidyRes A (c ^^^ A.pss) (rightComplement A v) := by
  rw [rightComplement, pseudoscalar_eq hA]
  simp only [Option.bind_eq_bind, Option.bind_some, List.headD_cons, cayley_fst]
  exact complement_tidy hA hv (fun b _ => rfl) fun b => sq_mem (swapSign_mem _ _) (negSign_mem _)
theorem leftComplement_tidy (hA : WfAlg A) {c : Nat} {v : Arg Int} (hv : TidyArg A c v) :
    TidyRes A (c ^^^ A.pss) (leftComplement A v) := by
  rw [leftComplement, pseudoscalar_eq hA]
  simp only [Option.bind_eq_bind, Option.bind_some, List.headD_cons, cayley_fst]
  exact complement_tidy hA hv (fun b _ => Nat.xor_comm _ _) fun b => sq_mem (swapSign_mem _ _) (negSign_mem _)

theorem rightComplement_good (hA : WfAlg A) : GoodUn A (rightComplement A) := fun _ ⟨_, h⟩ => (rightComplement_tidy hA h).good
theorem leftComplement_good (hA : WfAlg A) : GoodUn A (leftComplement A) := fun _ ⟨_, h⟩ => (leftComplement_tidy hA h).good
theorem rightComplementDual_good (hA : WfAlg A) : GoodUn A (rightComplementDual A) := fun v ⟨c, h⟩ => by
  rw [rightComplementDual, pseudoscalar_eq hA]
  simp only [Option.bind_eq_bind, Option.bind_some, List.headD_cons, cayley_fst]
  exact (complement_tidy hA h (fun b _ => Nat.xor_comm _ _) fun b => swapSign_mem _ _).good
theorem leftComplementDual_good (hA : WfAlg A) : GoodUn A (leftComplementDual A) := fun v ⟨c, h⟩ => by
  rw [leftComplementDual, pseudoscalar_eq hA]
  simp only [Option.bind_eq_bind, Option.bind_some, List.headD_cons, cayley_fst]
  exact (complement_tidy hA h (fun b _ => Nat.xor_comm _ _) fun b => swapSign_mem _ _).good
theorem negatives_good {v : Arg Int} (hv : GoodArg A v) : GoodRes A (diagonal v (negatives A v)) :=
  diagonal_good hv (by simp [negatives]) (sign_mem _)
theorem leftHodge_good (hA : WfAlg A) : GoodUn A (leftHodge A) := fun _ hv =>
  GoodRes.bind fun _ e => leftComplementDual_good hA _ (negatives_good hv _ e)
theorem rightHodge_good (hA : WfAlg A) : GoodUn A (rightHodge A) := fun _ hv =>
  GoodRes.bind fun _ e => rightComplementDual_good hA _ (negatives_good hv _ e)

theorem build1_good {B : Operator Int} (hB : GoodArg A (.op B)) {a : Arg Int} (ha : GoodArg A a) (h1 : 1 ≤ B.arity) :
    GoodRes A (B.build_ [a]) := by
  obtain ⟨c, hc⟩ := hB
  obtain ⟨d, hd⟩ := ha
  exact (Tidy.build1 hc hd h1).good

theorem unaryInverse_good {op : Operator Int} (h : GoodArg A (.op op)) : GoodRes A (unaryInverse op) := fun _ e => by
  obtain ⟨c, hc⟩ := h
  exact ⟨c, unaryInverse_tidy hc e⟩

theorem unaryInverse_arity {op t : Operator Int} (h : GoodArg A (.op op)) (e : unaryInverse op = some t) : 1 ≤ t.arity := by
  rw [unaryInverse] at e
  split at e
  · rename_i har
    simp only [Option.bind_eq_bind] at e
    obtain ⟨k, -, e⟩ := Option.bind_eq_some_iff.1 e
    have hl : ∀ l : List SubSpace, ∀ s, operatorsOf (K := Int) (l.map Arg.sub) s = [] := by
      intro l
      induction l with
      | nil => intro s; rfl
      | cons a l ih => intro s; exact ih _
    rw [Operator.build, build_eq_foldl, hl] at e
    simp only [List.reverse_nil, List.foldlM_nil] at e
    cases e
    have h1 : op.axes.length = 2 := by
      have := h.choose_spec.wf
      rw [Spec.WfOp.axes_eq this]
      simpa [Operator.arity] using har
    simp [Operator.arity, Operator.inputs, h1]
  · cases e

theorem rightHodgeInverse_good (hA : WfAlg A) : GoodUn A (rightHodgeInverse A) := fun v hv => by
  obtain ⟨c, e, hc⟩ := complement_spec hA hv.sub
  rw [rightHodgeInverse, e]
  simp only [Option.bind_eq_bind, Option.bind_some]
  refine GoodRes.bind fun d hd => GoodRes.bind fun t ht => ?_
  have hg := rightHodge_good hA _ (good_sub hc.1) _ hd
  exact build1_good (unaryInverse_good hg _ ht) hv (unaryInverse_arity hg ht)
theorem leftHodgeInverse_good (hA : WfAlg A) : GoodUn A (leftHodgeInverse A) := fun v hv => by
  obtain ⟨c, e, hc⟩ := complement_spec hA hv.sub
  rw [leftHodgeInverse, e]
  simp only [Option.bind_eq_bind, Option.bind_some]
  refine GoodRes.bind fun d hd => GoodRes.bind fun t ht => ?_
  have hg := leftHodge_good hA _ (good_sub hc.1) _ hd
  exact build1_good (unaryInverse_good hg _ ht) hv (unaryInverse_arity hg ht)

theorem nondegenerate_good (hA : WfAlg A) : GoodUn A (Factory.nondegenerate A) := fun v hv => by
  obtain ⟨-, ⟨N, e, hN⟩⟩ := Props.C17_split hA hv.sub
  rw [Factory.nondegenerate, e]
  exact (select_tidy hv.sub hN.1).good
theorem degenerate_good (hA : WfAlg A) : GoodUn A (Factory.degenerate A) := fun v hv => by
  obtain ⟨⟨N, e, hN⟩, -⟩ := Props.C17_split hA hv.sub
  rw [Factory.degenerate, e]
  exact (select_tidy hv.sub hN.1).good

theorem makeProduct_good (hA : WfAlg A) (formula : Int → Int → Int → Bool) : GoodBin A (fun l r => makeProduct A l r formula) :=
  fun _ _ ⟨_, hl⟩ ⟨_, hr⟩ => (makeProduct_tidy hA hl hr formula).good
theorem product_good (hA : WfAlg A) : GoodBin A (product A) := makeProduct_good hA _
theorem wedge_good (hA : WfAlg A) : GoodBin A (wedge A) := makeProduct_good hA _
theorem scalarProduct_good (hA : WfAlg A) : GoodBin A (scalarProduct A) := makeProduct_good hA _
theorem inner_good (hA : WfAlg A) : GoodBin A (inner A) := makeProduct_good hA _

theorem restrict_tidy (hA : WfAlg A) {i o : SubSpace} (hi : WfSub A i) (ho : WfSub A o) : TidyRes A 0 (restrict A i o) := by
  obtain ⟨T, e, hT⟩ := intersection_spec hA ho (T := i)
  rw [restrict, e]
  exact select_tidy (v := .sub i) hi hT.1

theorem restrict_arity {i o : SubSpace} {op : Operator Int} (e : restrict A i o = some op) : op.arity = 1 := by
  rw [restrict] at e
  simp only [Option.bind_eq_bind] at e
  obtain ⟨T, -, e⟩ := Option.bind_eq_some_iff.1 e
  rw [select] at e
  simp only [Option.bind_eq_bind] at e
  obtain ⟨k, -, e⟩ := Option.bind_eq_some_iff.1 e
  rw [build1_eq] at e
  have : (⟨k, [(Arg.sub (K := Int) (Arg.sub (K := Int) i).subspace).subspace, T]⟩ : Operator Int).build_ [.sub (Arg.sub (K := Int) i).subspace] = some ⟨k, [i, T]⟩ := by
    simp [build_eq_foldl, operatorsOf, Arg.subspace]
  rw [this] at e
  cases e
  rfl

theorem nProduct_good (hA : WfAlg A) {o : SubSpace} (ho : WfSub A o) : GoodBin A (fun l r => nProduct A l r o) := fun l r hl hr => by
  change GoodRes A (nProduct A l r o)
  rw [nProduct]
  simp only [Option.bind_eq_bind]
  refine GoodRes.bind fun gp hgp => GoodRes.bind fun s hs => ?_
  obtain ⟨c, (hc : Tidy A c gp)⟩ := product_good hA l r hl hr _ hgp
  have : s.bind [(0, gp)] = gp.fuse s 0 := by simp [Operator.bind]
  rw [this]
  exact (Tidy.fuse hc (restrict_tidy hA hc.wf.wf_output ho _ hs) (by rw [restrict_arity hs]; omega)).good

theorem kVector_wf (hA : WfAlg A) {g : Int} {S : SubSpace} (h : A.kVector g = some S) : WfSub A S := by
  by_cases hr : (A.n : Int) < g ∨ g < -(A.n + 1)
  · have := Props.C14_out_of_range (A := A) (gs := [g]) (by simp) hr
    rw [Alg.kVector, this] at h
    cases h
  · push Not at hr
    obtain ⟨k, hk⟩ : ∃ k, IsGrade A.n g k := by
      by_cases h0 : 0 ≤ g
      · exact ⟨g.toNat, by omega, by omega⟩
      · exact ⟨(g + (A.n + 1)).toNat, by omega, by omega⟩
    obtain ⟨T, e, hT⟩ := kVector_isSpace hA hk
    rw [h] at e
    obtain rfl := Option.some.inj e
    exact hT.1

theorem bivectorProduct_good (hA : WfAlg A) : GoodBin A (bivectorProduct A) := fun l r hl hr => by
  rw [bivectorProduct]
  simp only [Option.bind_eq_bind]
  exact GoodRes.bind fun o ho => nProduct_good hA (kVector_wf hA ho) l r hl hr

theorem antify_tidy (hA : WfAlg A) {op : Arg Int → Arg Int → Option (Operator Int)}
    (hop : ∀ {c d : Nat} {l r : Arg Int}, TidyArg A c l → TidyArg A d r → TidyRes A (c ^^^ d) (op l r))
    {c d : Nat} {l r : Arg Int} (hl : TidyArg A c l) (hr : TidyArg A d r) : TidyRes A (c ^^^ d ^^^ A.pss) (antify A op l r) := by
  rw [antify]
  simp only [Option.bind_eq_bind]
  refine TidyRes.bind fun x hx => TidyRes.bind fun y hy => TidyRes.bind fun z hz => TidyRes.bind fun w hw => ?_
  have h1 := rightComplement_tidy hA hl x hx
  have h2 := rightComplement_tidy hA hr y hy
  have h3 := hop (l := .op x) (r := .op y) h1 h2 z hz
  have h4 := leftComplement_tidy hA (v := .op z) h3 w hw
  have : c ^^^ A.pss ^^^ (d ^^^ A.pss) ^^^ A.pss = c ^^^ d ^^^ A.pss := by
    apply Nat.eq_of_testBit_eq
    intro i
    simp only [Nat.testBit_xor]
    cases c.testBit i <;> cases d.testBit i <;> cases A.pss.testBit i <;> rfl
  rw [this] at h4
  exact h4.squeeze hA
theorem antify_good (hA : WfAlg A) {op : Arg Int → Arg Int → Option (Operator Int)} (hop : GoodBin A op) : GoodBin A (antify A op) :=
  fun l r hl hr => by
  rw [antify]
  simp only [Option.bind_eq_bind]
  refine GoodRes.bind fun x hx => GoodRes.bind fun y hy => GoodRes.bind fun z hz => GoodRes.squeeze hA ?_
  exact leftComplement_good hA _ (hop _ _ (rightComplement_good hA l hl x hx) (rightComplement_good hA r hr y hy) z hz)

theorem antiWedge_good (hA : WfAlg A) : GoodBin A (antiWedge A) := antify_good hA (wedge_good hA)
theorem leftInterior_good (hA : WfAlg A) : GoodBin A (leftInterior A) := fun l r hl hr => by
  rw [leftInterior]
  simp only [Option.bind_eq_bind]
  exact GoodRes.bind fun x hx => GoodRes.squeeze hA (antiWedge_good hA _ _ (leftComplement_good hA l hl x hx) hr)
theorem rightInterior_good (hA : WfAlg A) : GoodBin A (rightInterior A) := fun l r hl hr => by
  rw [rightInterior]
  simp only [Option.bind_eq_bind]
  exact GoodRes.bind fun x hx => GoodRes.squeeze hA (antiWedge_good hA _ _ hl (rightComplement_good hA r hr x hx))
theorem regressive_good (hA : WfAlg A) : GoodBin A (regressive A) := fun l r hl hr => by
  rw [regressive]
  simp only [Option.bind_eq_bind]
  refine GoodRes.bind fun x hx => GoodRes.bind fun y hy => GoodRes.bind fun z hz => ?_
  refine GoodRes.squeeze hA (rightHodgeInverse_good hA _ ?_)
  exact wedge_good hA _ _ (rightHodge_good hA l hl x hx) (rightHodge_good hA r hr y hy) z hz

theorem commutator_good (hA : WfAlg A) {s : Int} (hs : s = 1 ∨ s = -1) : GoodBin A (makeCommutator A (product A) s) :=
  fun _ _ ⟨_, hl⟩ ⟨_, hr⟩ => (makeCommutator_tidy hA (e := 0) (fun h1 h2 => by rw [Nat.xor_zero]; exact product_tidy hA h1 h2) hs hl hr).good
theorem commutatorAnti_good (hA : WfAlg A) {s : Int} (hs : s = 1 ∨ s = -1) : GoodBin A (makeCommutator A (antiProduct A) s) :=
  fun _ _ ⟨_, hl⟩ ⟨_, hr⟩ =>
    (makeCommutator_tidy hA (e := A.pss) (fun h1 h2 => antify_tidy hA (product_tidy hA) h1 h2) hs hl hr).good

theorem cross_good (hA : WfAlg A) : GoodBin A (cross A) := fun l r hl hr => by
  rw [cross]
  simp only [Option.bind_eq_bind]
  exact GoodRes.bind fun x hx => GoodRes.squeeze hA (rightHodge_good hA _ (wedge_good hA l r hl hr x hx))

theorem right_good (hA : WfAlg A) {g : Arg Int → Option (Operator Int)} (hg : GoodUn A g) :
    GoodBin A (fun l r => (g r).bind fun o => product A l (.op o)) := fun l r hl hr =>
  GoodRes.bind fun x hx => product_good hA l _ hl (hg r hr x hx)

theorem reverseProduct_good (hA : WfAlg A) : GoodBin A (reverseProduct A) := right_good hA reverse_good
theorem involuteProduct_good (hA : WfAlg A) : GoodBin A (involuteProduct A) := right_good hA involute_good
theorem conjugateProduct_good (hA : WfAlg A) : GoodBin A (conjugateProduct A) := right_good hA conjugate_good
theorem scalarNegationProduct_good (hA : WfAlg A) : GoodBin A (scalarNegationProduct A) := right_good hA scalarNegation_good
theorem pseudoscalarNegationProduct_good (hA : WfAlg A) : GoodBin A (pseudoscalarNegationProduct A) :=
  right_good hA pseudoscalarNegation_good
theorem studyConjugate_good {S : SubSpace} (hS : WfSub A S) : GoodRes A (studyConjugate A S) :=
  diagonal_good (good_sub hS) (by simp [SubSpace.grades, Arg.subspace]) (sign_mem _)
theorem studyConjugateProduct_good (hA : WfAlg A) {l : Arg Int} (hl : GoodArg A l) {S : SubSpace} (hS : WfSub A S) :
    GoodRes A (studyConjugateProduct A l S) := by
  rw [studyConjugateProduct]
  exact GoodRes.bind fun x hx => product_good hA _ _ hl (studyConjugate_good hS x hx)

theorem symm_good (hA : WfAlg A) {f : Arg Int → Arg Int → Option (Operator Int)} (hf : GoodBin A f) (axes : List Nat) :
    GoodUn A (fun v => (f v v).bind (·.symmetry A axes)) := fun v hv => GoodRes.symmetry hA (hf v v hv hv) axes
theorem symmetricReverse_good (hA : WfAlg A) : GoodUn A (symmetricReverse A) := symm_good hA (reverseProduct_good hA) _
theorem squared_good (hA : WfAlg A) : GoodUn A (squared A) := symm_good hA (product_good hA) _
theorem cubed_good (hA : WfAlg A) : GoodUn A (cubed A) := fun v hv => by
  rw [cubed]
  simp only [Option.bind_eq_bind]
  exact GoodRes.bind fun x hx => GoodRes.symmetry hA (product_good hA _ _ (squared_good hA v hv x hx) hv) _
theorem fullSandwich_good (hA : WfAlg A) : GoodBin A (fullSandwich A) := fun l r hl hr => by
  rw [fullSandwich]
  simp only [Option.bind_eq_bind]
  refine GoodRes.bind fun x hx => GoodRes.bind fun y hy => GoodRes.symmetry hA ?_ _
  exact product_good hA _ _ (product_good hA l r hl hr x hx) (reverse_good l hl y hy)
theorem gradeSelection_good (hA : WfAlg A) {op : Operator Int} (h : GoodArg A (.op op)) (formula : List Int → Bool) :
    GoodRes A (op.gradeSelection A formula) := by
  obtain ⟨c, hc⟩ := h
  exact (Tidy.gradeSelection hA hc formula).good
theorem sandwich_good (hA : WfAlg A) {R : Arg Int} (hR : GoodArg A R) {S : SubSpace} (hS : WfSub A S) : GoodRes A (sandwich A R S) := by
  rw [sandwich]
  simp only [Option.bind_eq_bind]
  refine GoodRes.bind fun x hx => ?_
  split
  · exact gradeSelection_good hA (fullSandwich_good hA _ _ hR (good_sub hS) x hx) _
  · intro _ e; cases e

theorem factor_good (hA : WfAlg A) {g h : Arg Int → Option (Operator Int)} (hg : GoodUn A g) (hh : GoodUn A h) {v : Arg Int}
    (hv : GoodArg A v) (axes : List Nat) :
    GoodRes A ((symmetricReverse A v).bind fun p => (g v).bind fun a => (h (.op p)).bind fun b =>
      (product A (.op a) (.op b)).bind (·.symmetry A axes)) :=
  GoodRes.bind fun x hx => GoodRes.bind fun y hy => GoodRes.bind fun z hz =>
    GoodRes.symmetry hA (product_good hA _ _ (hg v hv y hy) (hh _ (symmetricReverse_good hA v hv x hx) z hz)) _
theorem factor_completed_good (hA : WfAlg A) {h : Arg Int → Option (Operator Int)} (hh : GoodUn A h) {v : Arg Int}
    (hv : GoodArg A v) (axes : List Nat) :
    GoodRes A ((symmetricReverse A v).bind fun p => (h (.op p)).bind fun b =>
      (product A (.op p) (.op b)).bind (·.symmetry A axes)) :=
  GoodRes.bind fun x hx => GoodRes.bind fun z hz =>
    GoodRes.symmetry hA (product_good hA _ _ (symmetricReverse_good hA v hv x hx) (hh _ (symmetricReverse_good hA v hv x hx) z hz)) _

theorem selectSubspace_good {op : Operator Int} (h : GoodArg A (.op op)) {o : SubSpace} (ho : WfSub A o) :
    GoodRes A (op.selectSubspace A o) := by
  obtain ⟨c, hc⟩ := h
  exact (selectSubspace_tidy hc ho).good

theorem euclidianFactorization_good (hA : WfAlg A) : GoodUn A (euclidianFactorization A) := fun v hv => by
  rw [euclidianFactorization]
  simp only [Option.bind_eq_bind, Operator.selectGrade]
  refine GoodRes.bind fun x hx => GoodRes.bind fun y hy => GoodRes.bind fun z hz => GoodRes.symmetry hA ?_ _
  refine GoodRes.bind fun o ho => selectSubspace_good ?_ (kVector_wf hA ho)
  exact rightHodge_good hA _ (product_good hA _ _ hv (rightHodge_good hA v hv x hx) y hy) z hz

theorem completeOp_good (hA : WfAlg A) : GoodBin A (completeOp A) := fun l r hl hr => by
  rw [completeOp]
  simp only [Option.bind_eq_bind]
  refine GoodRes.bind fun x hx => ?_
  obtain ⟨c, (hc : Tidy A c x)⟩ := product_good hA l r hl hr x hx
  exact (hc.symmetry hA _).good
theorem inertia_good (hA : WfAlg A) : GoodBin A (inertia A) := fun l r hl hr => by
  rw [inertia]
  simp only [Option.bind_eq_bind]
  exact GoodRes.bind fun x hx =>
    GoodRes.symmetry hA (regressive_good hA _ _ hl (commutator_good hA (Or.inr rfl) l r hl hr x hx)) _

theorem slice_wf (hA : WfAlg A) {S T : SubSpace} (hS : WfSub A S) {idx : List Nat} (h : S.slice A idx = some T) : WfSub A T := by
  rw [SubSpace.slice] at h
  obtain ⟨l, hl, h⟩ := Option.bind_eq_some_iff.1 h
  have hlt : ∀ b ∈ l, b < 2 ^ A.n := by
    have : ∀ (idx l : List Nat), idx.mapM (S.blades[·]?) = some l → ∀ b ∈ l, b ∈ S.blades := by
      intro idx
      induction idx with
      | nil => intro l e; simp at e; subst e; simp
      | cons i idx ih =>
        intro l e
        rw [List.mapM_cons] at e
        simp only [Option.bind_eq_bind, Option.pure_def] at e
        obtain ⟨b, hb, e⟩ := Option.bind_eq_some_iff.1 e
        obtain ⟨bs, hbs, e⟩ := Option.bind_eq_some_iff.1 e
        cases e
        intro b' hb'
        rcases List.mem_cons.1 hb' with rfl | hb'
        · exact List.mem_of_getElem? hb
        · exact ih bs hbs b' hb'
    exact fun b hb => hS.lt b (this idx l hl b hb)
  obtain ⟨-, h2⟩ := Props.C12_from_blades hA hlt
  obtain ⟨h3, h4⟩ := h2 T h
  exact ⟨fun b hb => hlt b (h3.mem_iff.1 hb), h4⟩

theorem solve_good (hA : WfAlg A) {S T : SubSpace} (hS : WfSub A S) : GoodRes A (solve A S T) := by
  obtain ⟨F, e, hF, -⟩ := full_spec hA
  have hround : ∀ {t y : SubSpace}, solveRound A S F t = some y → WfSub A y := by
    intro t y h
    rw [solveRound] at h
    simp only [Option.bind_eq_bind] at h
    obtain ⟨_, -, h⟩ := Option.bind_eq_some_iff.1 h
    obtain ⟨_, -, h⟩ := Option.bind_eq_some_iff.1 h
    obtain ⟨_, -, h⟩ := Option.bind_eq_some_iff.1 h
    exact slice_wf hA hF h
  rw [solve, e]
  simp only [Option.bind_eq_bind, Option.bind_some]
  refine GoodRes.bind fun x hx => GoodRes.bind fun y hy => GoodRes.bind fun z hz => ?_
  exact product_good hA _ _ (good_sub hS) (good_sub (hround hz))

theorem unary_good (hA : WfAlg A) {f : Arg Int → Option (Operator Int)} (hf : f ∈ unaryFunctions A) : GoodUn A f := by
  simp only [unaryFunctions, List.mem_cons, List.not_mem_nil, or_false] at hf
  rcases hf with rfl | rfl | rfl | rfl | rfl | rfl | rfl | rfl | rfl | rfl | rfl | rfl | rfl | rfl | rfl | rfl | rfl | rfl | rfl | rfl |
    rfl | rfl | rfl | rfl | rfl | rfl | rfl
  · exact scalarNegation_good
  · exact pseudoscalarNegation_good
  · exact reverse_good
  · exact involute_good
  · exact conjugate_good
  · exact rightComplement_good hA
  · exact leftComplement_good hA
  · exact rightComplementDual_good hA
  · exact leftComplementDual_good hA
  · exact leftHodge_good hA
  · exact rightHodge_good hA
  · exact rightHodgeInverse_good hA
  · exact leftHodgeInverse_good hA
  · exact nondegenerate_good hA
  · exact degenerate_good hA
  · exact symmetricReverse_good hA
  · exact symm_good hA (involuteProduct_good hA) _
  · exact symm_good hA (conjugateProduct_good hA) _
  · exact symm_good hA (scalarNegationProduct_good hA) _
  · exact symm_good hA (pseudoscalarNegationProduct_good hA) _
  · exact squared_good hA
  · exact cubed_good hA
  · exact fun v hv => factor_good hA reverse_good conjugate_good hv _
  · exact fun v hv => factor_completed_good hA conjugate_good hv _
  · exact fun v hv => factor_good hA reverse_good scalarNegation_good hv _
  · exact fun v hv => factor_completed_good hA scalarNegation_good hv _
  · exact euclidianFactorization_good hA

theorem binary_good (hA : WfAlg A) {f : Arg Int → Arg Int → Option (Operator Int)} (hf : f ∈ binaryFunctions A) : GoodBin A f := by
  simp only [binaryFunctions, List.mem_cons, List.not_mem_nil, or_false] at hf
  rcases hf with rfl | rfl | rfl | rfl | rfl | rfl | rfl | rfl | rfl | rfl | rfl | rfl | rfl | rfl | rfl | rfl | rfl | rfl | rfl | rfl |
    rfl | rfl | rfl | rfl | rfl | rfl | rfl | rfl | rfl | rfl
  · exact product_good hA
  · exact wedge_good hA
  · exact inner_good hA
  · exact scalarProduct_good hA
  · exact bivectorProduct_good hA
  · exact makeProduct_good hA _
  · exact makeProduct_good hA _
  · exact antify_good hA (product_good hA)
  · exact antiWedge_good hA
  · exact antify_good hA (inner_good hA)
  · exact antify_good hA (scalarProduct_good hA)
  · exact leftInterior_good hA
  · exact rightInterior_good hA
  · exact antify_good hA (leftInterior_good hA)
  · exact antify_good hA (rightInterior_good hA)
  · exact regressive_good hA
  · exact commutator_good hA (Or.inr rfl)
  · exact commutator_good hA (Or.inl rfl)
  · exact commutatorAnti_good hA (Or.inr rfl)
  · exact commutatorAnti_good hA (Or.inl rfl)
  · exact cross_good hA
  · exact reverseProduct_good hA
  · exact involuteProduct_good hA
  · exact conjugateProduct_good hA
  · exact scalarNegationProduct_good hA
  · exact pseudoscalarNegationProduct_good hA
  · exact antify_good hA (reverseProduct_good hA)
  · exact fullSandwich_good hA
  · exact completeOp_good hA
  · exact inertia_good hA

/-- Everything that can be built is tidy. -/
theorem built_good (hA : WfAlg A) {a : Arg Int} (h : Built A a) : GoodArg A a := by
  induction h with
  | sub hS => exact good_sub hS
  | un hf _ e ih => exact unary_good hA hf _ ih _ e
  | bin hf _ _ e ihl ihr => exact binary_good hA hf _ _ ihl ihr _ e
  | identity hS e =>
    refine diagonal_good (v := .sub _) (good_sub hS) (w := _) ?_ ?_ _ e
    · simp [Arg.subspace]
    · simp
  | select _ ho e ih => exact (select_tidy ih.sub ho).good _ e
  | restrict hi ho e => exact (restrict_tidy hA hi ho).good _ e
  | nProduct _ _ ho e ihl ihr => exact nProduct_good hA ho _ _ ihl ihr _ e
  | studyConjugate hS e => exact studyConjugate_good hS _ e
  | studyConjugateProduct _ hS e ih => exact studyConjugateProduct_good hA ih hS _ e
  | symmetricStudyConjugate hS e => exact GoodRes.symmetry hA (studyConjugateProduct_good hA (good_sub hS) hS) _ _ e
  | studyNormSquared hS e =>
    rw [Factory.studyNormSquared] at e
    exact GoodRes.bind (fun x hx => scalarProduct_good hA _ _ (good_sub hS) (studyConjugate_good hS x hx)) _ e
  | sandwich _ hS e ih => exact sandwich_good hA ih hS _ e
  | reverseSandwich hR hS e =>
    exact GoodRes.bind (fun x hx => sandwich_good hA (reverse_good _ (good_sub hR) x hx) hS) _ e
  | composeSymmetryOps _ hf hg e ih =>
    rw [composeSymmetryOps] at e
    simp only [Option.bind_eq_bind] at e
    refine GoodRes.bind (fun x hx => GoodRes.bind fun y hy => GoodRes.bind fun z hz => GoodRes.bind fun a ha => GoodRes.bind fun b hb => GoodRes.bind fun d hd => ?_) _ e
    have h1 := unary_good hA hf _ ih x hx
    obtain ⟨c, hc⟩ := product_good hA _ _ ih h1 y hy
    have h2 : GoodArg A (.op z) := ⟨c, Tidy.symmetry hA hc _ z hz⟩
    have h3 := product_good hA _ _ (unary_good hA hf _ ih a ha) (unary_good hA hg _ h2 b hb) d hd
    obtain ⟨c', hc'⟩ := h3
    exact (Tidy.symmetry hA hc' _).good
  | solve hS _ e => exact solve_good hA hS _ e
  | unaryInverse _ e ih => exact unaryInverse_good ih _ e
  | fuse _ _ hx e ihf ihg =>
    obtain ⟨c, hc⟩ := ihf
    obtain ⟨d, hd⟩ := ihg
    exact (Tidy.fuse hc hd hx).good _ e
  | squeeze _ e ih => obtain ⟨c, hc⟩ := ih; exact ⟨c, Tidy.squeeze hA hc _ e⟩
  | swapaxes _ e ih => obtain ⟨c, hc⟩ := ih; exact ⟨c, Tidy.swapaxes hc _ _ _ e⟩
  | symmetry _ e ih => obtain ⟨c, hc⟩ := ih; exact ⟨c, Tidy.symmetry hA hc _ _ e⟩
  | gradeSelection _ e ih => exact gradeSelection_good hA ih _ _ e
  | selectSubspace _ hS e ih => exact selectSubspace_good ih hS _ e
  | neg _ ih => obtain ⟨c, hc⟩ := ih; exact ⟨c, Tidy.mul hc (Or.inr rfl)⟩

end Verif
