import Verif.Proofs.InverseSix2
/-! # Evaluation of `inverse` in six dimensions: the implementations chosen -/
namespace Verif.Six
open Model

theorem x_inside : (do some ((← a6.bivector).contains (⟨[3, 12, 48]⟩ : SubSpace))) = some true := by decide +kernel
theorem s_inside2 : (do some ((← a6.bivector).contains (⟨[0, 15, 51, 60]⟩ : SubSpace))) = some false := by decide +kernel
theorem s_inside3 : (do some ((← a6.trivector).contains (⟨[0, 15, 51, 60]⟩ : SubSpace))) = some false := by decide +kernel

theorem s_scalar0 : (⟨[0, 15, 51, 60]⟩ : SubSpace).isNSimple a6 0 = some false := by decide +kernel
theorem t_scalar0 : (⟨[0, 15]⟩ : SubSpace).isNSimple a6 0 = some false := by decide +kernel
theorem z_scalar0 : (⟨[0]⟩ : SubSpace).isNSimple a6 0 = some true := by decide +kernel

theorem any_false {α : Type} {p : α → Option Bool} {a : α} {l : List α} (h : p a = some false) : (a :: l).anyM p = l.anyM p := by
  rw [List.anyM, h]; rfl
theorem any_true {α : Type} {p : α → Option Bool} {a : α} {l : List α} (h : p a = some true) : (a :: l).anyM p = some true := by
  rw [List.anyM, h]; rfl
theorem bind_of {α β : Type} {x : Option α} {a : α} {f : α → Option β} (h : x = some a) : (do f (← x)) = f a := by
  rw [h]; rfl

theorem s_simple : (⟨[0, 15, 51, 60]⟩ : SubSpace).isNSimple a6 1 = some false := by
  rw [SubSpace.isNSimple, SubSpace.selfProducts]
  refine (any_false ?_).trans ?_
  · exact (bind_of s_squared).trans s_scalar0
  refine (any_false ?_).trans ?_
  · exact (bind_of s_reverse).trans s_scalar0
  refine (any_false ?_).trans ?_
  · exact (bind_of s_involute).trans s_scalar0
  refine (any_false ?_).trans ?_
  · exact (bind_of s_conjugate).trans s_scalar0
  refine (any_false ?_).trans ?_
  · exact (bind_of s_scalar).trans t_scalar0
  refine (any_false ?_).trans ?_
  · exact (bind_of s_pseudoscalar).trans t_scalar0
  rfl
theorem t_simple : (⟨[0, 15]⟩ : SubSpace).isNSimple a6 1 = some true := by
  rw [SubSpace.isNSimple, SubSpace.selfProducts]
  refine (any_false ?_).trans ?_
  · exact (bind_of t_squared).trans t_scalar0
  refine (any_false ?_).trans ?_
  · exact (bind_of t_reverse).trans t_scalar0
  refine (any_false ?_).trans ?_
  · exact (bind_of t_involute).trans t_scalar0
  refine (any_false ?_).trans ?_
  · exact (bind_of t_conjugate).trans t_scalar0
  refine any_true ?_
  exact (bind_of t_scalar).trans z_scalar0

theorem loop_false {K F : Type} {k : K} {c : K → Option Bool} {f : F} {l : List ((K → Option Bool) × F)} (h : c k = some false) :
    Dispatch.matchLoop k ((c, f) :: l) = Dispatch.matchLoop k l := by
  rw [Dispatch.matchLoop, h]
theorem loop_true {K F : Type} {k : K} {c : K → Option Bool} {f : F} {l : List ((K → Option Bool) × F)} (h : c k = some true) :
    Dispatch.matchLoop k ((c, f) :: l) = some f := by
  rw [Dispatch.matchLoop, h]

theorem not_empty {S : SubSpace} (h : (S == ⟨[]⟩) = false) : (do some (S == (← a6.empty))) = some false := by
  rw [bind_of empty6, h]
theorem not_scalar {S : SubSpace} (h : (S == ⟨[0]⟩) = false) : (do some (S == (← a6.scalar))) = some false := by
  rw [bind_of scalar6, h]

theorem x_rule : Dispatch.matchLoop (⟨[3, 12, 48]⟩ : SubSpace) (inverseOptions a6) = some .bivector := by
  rw [inverseOptions, simplifyInverses]
  simp only [List.cons_append, List.nil_append]
  refine (loop_false ?_).trans ?_
  · exact not_empty (by decide)
  refine (loop_false ?_).trans ?_
  · exact not_scalar (by decide)
  refine (loop_false ?_).trans ?_
  · exact (bind_of x_squared).trans s_scalar0
  refine (loop_false ?_).trans ?_
  · exact (bind_of x_reverse).trans s_scalar0
  refine (loop_false ?_).trans ?_
  · exact (bind_of x_conjugate).trans s_scalar0
  refine (loop_false ?_).trans ?_
  · exact (bind_of x_scalar).trans s_scalar0
  refine (loop_false ?_).trans ?_
  · exact (bind_of x_pseudoscalar).trans s_scalar0
  refine (loop_false ?_).trans ?_
  · exact (bind_of x_involute).trans s_scalar0
  refine loop_true ?_
  exact x_inside

theorem s_rule : Dispatch.matchLoop (⟨[0, 15, 51, 60]⟩ : SubSpace) (inverseOptions a6) = some .scalarNegation := by
  rw [inverseOptions, simplifyInverses, simplifyInverses]
  simp only [List.cons_append, List.nil_append]
  refine (loop_false ?_).trans ?_
  · exact not_empty (by decide)
  refine (loop_false ?_).trans ?_
  · exact not_scalar (by decide)
  refine (loop_false ?_).trans ?_
  · exact (bind_of s_squared).trans s_scalar0
  refine (loop_false ?_).trans ?_
  · exact (bind_of s_reverse).trans s_scalar0
  refine (loop_false ?_).trans ?_
  · exact (bind_of s_conjugate).trans s_scalar0
  refine (loop_false ?_).trans ?_
  · exact (bind_of s_scalar).trans t_scalar0
  refine (loop_false ?_).trans ?_
  · exact (bind_of s_pseudoscalar).trans t_scalar0
  refine (loop_false ?_).trans ?_
  · exact (bind_of s_involute).trans s_scalar0
  refine (loop_false ?_).trans ?_
  · exact s_inside2
  refine (loop_false ?_).trans ?_
  · exact s_inside3
  refine (loop_false ?_).trans ?_
  · exact (bind_of s_squared).trans s_simple
  refine (loop_false ?_).trans ?_
  · exact (bind_of s_reverse).trans s_simple
  refine (loop_false ?_).trans ?_
  · exact (bind_of s_conjugate).trans s_simple
  refine loop_true ?_
  exact (bind_of s_scalar).trans t_simple

theorem t_rule : Dispatch.matchLoop (⟨[0, 15]⟩ : SubSpace) (inverseOptions a6) = some .scalarNegation := by
  rw [inverseOptions, simplifyInverses]
  simp only [List.cons_append, List.nil_append]
  refine (loop_false ?_).trans ?_
  · exact not_empty (by decide)
  refine (loop_false ?_).trans ?_
  · exact not_scalar (by decide)
  refine (loop_false ?_).trans ?_
  · exact (bind_of t_squared).trans t_scalar0
  refine (loop_false ?_).trans ?_
  · exact (bind_of t_reverse).trans t_scalar0
  refine (loop_false ?_).trans ?_
  · exact (bind_of t_conjugate).trans t_scalar0
  refine loop_true ?_
  exact (bind_of t_scalar).trans z_scalar0

end Verif.Six
