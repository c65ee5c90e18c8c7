import Verif.Proofs.Factory2
/-! # From what operators compute to what multivector methods return -/
namespace Verif
open Model Spec Model.Factory

variable {A : Alg} {R : Type} [CommRing R]

theorem construct_gives {S : SubSpace} (hS : WfSub A S) {v : List R} (hv : v.length = S.blades.length) :
    Gives A (MV.construct v S) (denote A R S v) := ⟨⟨S, v⟩, by rw [MV.construct, if_pos hv], ⟨hS, hv⟩, rfl⟩

theorem den_vals (args : List (MV R)) : den A R (args.map (·.sub)) (args.map (·.vals)) = args.map (val A) := by
  induction args with
  | nil => rfl
  | cons x xs ih =>
    simp only [den, List.map_cons, List.zipWith_cons_cons] at ih ⊢
    rw [ih]; rfl

theorem fits_vals {args : List (MV R)} (hw : ∀ x ∈ args, WfMV A x) : Fits (args.map (·.vals)) (args.map (·.sub)) := by
  induction args with
  | nil => exact List.Forall₂.nil
  | cons x xs ih =>
    exact List.Forall₂.cons (hw x List.mem_cons_self).len (ih fun y hy => hw y (List.mem_cons_of_mem _ hy))

theorem call_gives {r : Option (Operator Int)} {ins : List SubSpace} {C : Cond A} {F : Fn A} (h : Sem A r ins C F)
    {args : List (MV R)} (hs : args.map (·.sub) = ins) (hw : ∀ x ∈ args, WfMV A x) (hC : C R (args.map (val A))) :
    Gives A (MV.call r args) (F R (args.map (val A))) := by
  obtain ⟨op, rfl, h2, rfl, h4⟩ := h
  have hf := fits_vals hw
  rw [hs] at hf
  have hd := den_vals (A := A) args
  rw [hs] at hd
  have e := h4 R _ hf (by rw [hd]; exact hC)
  rw [hd] at e
  rw [← e, MV.call, Option.bind_eq_bind, Option.bind_some, if_pos]
  · exact construct_gives h2.wf_output (apply_length R h2 _)
  · rw [← hs, List.map_map]
    apply List.map_congr_left
    intro x hx
    exact (hw x hx).len.symm

theorem call_gives1 {r : Option (Operator Int)} {C : Cond A} {F : Fn A} {x : MV R} (h : Sem A r [x.sub] C F)
    (hx : WfMV A x) (hC : C R [val A x]) : Gives A (MV.call r [x]) (F R [val A x]) :=
  call_gives h rfl (by simpa using hx) hC

theorem call_gives2 {r : Option (Operator Int)} {C : Cond A} {F : Fn A} {x y : MV R} (h : Sem A r [x.sub, y.sub] C F)
    (hx : WfMV A x) (hy : WfMV A y) (hC : C R [val A x, val A y]) :
    Gives A (MV.call r [x, y]) (F R [val A x, val A y]) :=
  call_gives h rfl (by simpa using ⟨hx, hy⟩) hC

theorem call_gives3 {r : Option (Operator Int)} {C : Cond A} {F : Fn A} {x y z : MV R} (h : Sem A r [x.sub, y.sub, z.sub] C F)
    (hx : WfMV A x) (hy : WfMV A y) (hz : WfMV A z) (hC : C R [val A x, val A y, val A z]) :
    Gives A (MV.call r [x, y, z]) (F R [val A x, val A y, val A z]) :=
  call_gives h rfl (by simpa using ⟨hx, hy, hz⟩) hC

theorem Spec.Gives.bind {r : Option (MV R)} {v w : Cl A R} (h : Gives A r v) {k : MV R → Option (MV R)}
    (hk : ∀ z, WfMV A z → val A z = v → Gives A (k z) w) : Gives A (r.bind k) w := by
  obtain ⟨z, rfl, h2, h3⟩ := h
  exact hk z h2 h3

theorem Spec.Gives.congr {r : Option (MV R)} {v w : Cl A R} (h : Gives A r v) (e : v = w) : Gives A r w := e ▸ h

/-- An arithmetic identity between values of calls. -/
theorem Spec.Gives.val {r : Option (MV R)} {v : Cl A R} (h : Gives A r v) {z : MV R} (hz : r = some z) :
    WfMV A z ∧ val A z = v := by
  obtain ⟨z', h1, h2, h3⟩ := h
  cases h1.symm.trans hz
  exact ⟨h2, h3⟩

end Verif
