import Verif.Model.Dispatch
import Mathlib.Data.List.Basic
import Mathlib.Tactic
/-! # Properties C54 and C55: dynamic dispatch and the cache of concrete operators -/
namespace Verif.Spec

/-- `f` is the implementation in the first option that accepts `k`; the conditions before it were evaluated, and refused. -/
def IsFirst {K F : Type} (opts : List ((K → Option Bool) × F)) (k : K) (f : F) : Prop :=
  ∃ pre c post, opts = pre ++ (c, f) :: post ∧ c k = some true ∧ ∀ o ∈ pre, o.1 k = some false

end Verif.Spec
namespace Verif.Props
open Model Spec
section
variable {K F : Type} [DecidableEq K]
open Dispatch

theorem matchLoop_iff (opts : List ((K → Option Bool) × F)) (k : K) (f : F) : matchLoop k opts = some f ↔ IsFirst opts k f := by
  induction opts with
  | nil => simp [matchLoop, IsFirst]
  | cons o opts ih =>
    obtain ⟨c, g⟩ := o
    rw [matchLoop]
    constructor
    · intro h
      match hc : c k with
      | none => rw [hc] at h; cases h
      | some true => rw [hc] at h; cases h; exact ⟨[], c, opts, rfl, hc, by simp⟩
      | some false =>
        rw [hc] at h
        obtain ⟨pre, c', post, e, h1, h2⟩ := ih.1 h
        refine ⟨(c, g) :: pre, c', post, by rw [e]; rfl, h1, ?_⟩
        intro o ho
        rcases List.mem_cons.1 ho with rfl | ho
        · exact hc
        · exact h2 o ho
    · rintro ⟨pre, c', post, e, h1, h2⟩
      cases pre with
      | nil =>
        cases e
        rw [h1]
      | cons p pre =>
        rw [List.cons_append] at e
        injection e with e1 e2
        subst e1
        rw [show c k = some false from h2 (c, g) (by simp)]
        exact ih.2 ⟨pre, c', post, e2, h1, fun o ho => h2 o (by simp [ho])⟩

theorem run_snoc (h : List (Event K F)) (e : Event K F) : run (h ++ [e]) = (run h).step e := by
  rw [run, List.foldl_append]; rfl

theorem lookup_step {d : Dispatch K F} {k : K} {f : F} (h : d.cache.lookup k = some f) (e : Event K F) : (d.step e).cache.lookup k = some f := by
  cases e with
  | register c g p => exact h
  | call k' =>
    rw [step, call]
    split
    · exact h
    · rename_i hk
      have hne : k ≠ k' := by rintro rfl; rw [h] at hk; cases hk
      split
      · simp only [List.lookup_cons]
        rw [beq_eq_false_iff_ne.2 hne]
        exact h
      · exact h

theorem lookup_foldl {d : Dispatch K F} {k : K} {f : F} (h : d.cache.lookup k = some f) (t : List (Event K F)) :
    (t.foldl step d).cache.lookup k = some f := by
  induction t generalizing d with
  | nil => exact h
  | cons e t ih => exact ih (lookup_step h e)

theorem lookup_call {d : Dispatch K F} {k : K} {f : F} (h : (d.call k).2 = some f) : (d.call k).1.cache.lookup k = some f := by
  rw [call] at h ⊢
  split
  · rename_i g hg
    rw [hg] at h; cases h; exact hg
  · rename_i hg
    rw [hg] at h
    split
    · rename_i g hm
      rw [hm] at h; cases h
      simp
    · rename_i hm
      rw [hm] at h; cases h

/-- C54: once a call with these attributes succeeded, every later one runs the same implementation, whatever is registered
or called in between. -/
theorem C54_frozen (h t : List (Event K F)) (k : K) (f : F) (hf : ((run h).call k).2 = some f) :
    ((run (h ++ .call k :: t)).call k).2 = some f := by
  have : (run (h ++ .call k :: t)).cache.lookup k = some f := by
    rw [run, List.foldl_append, List.foldl_cons]
    exact lookup_foldl (lookup_call hf) t
  rw [call, this]

theorem cache_origin (h : List (Event K F)) (k : K) (f : F) (hf : (run h).cache.lookup k = some f) :
    ∃ h1 h2, h = h1 ++ .call k :: h2 ∧ ((run h1).call k).2 = some f := by
  induction h using List.reverseRecOn with
  | nil => cases hf
  | append_singleton h e ih =>
    rw [run_snoc] at hf
    by_cases hc : (run h).cache.lookup k = some f
    · obtain ⟨h1, h2, e1, e2⟩ := ih hc
      exact ⟨h1, h2 ++ [e], by rw [e1]; simp, e2⟩
    · cases e with
      | register c g p => exact absurd hf hc
      | call k' =>
        refine ⟨h, [], ?_, ?_⟩
        · congr
          rw [step, call] at hf
          split at hf
          · exact absurd hf hc
          · split at hf
            · simp only [List.lookup_cons] at hf
              split at hf
              · rename_i hb; exact (beq_iff_eq.1 hb).symm
              · exact absurd hf hc
            · exact absurd hf hc
        · rw [step, call] at hf
          rw [call]
          split at hf
          · exact absurd hf hc
          · rename_i hk
            split at hf
            · rename_i g hm
              simp only [List.lookup_cons] at hf
              split at hf
              · rename_i hb
                cases beq_iff_eq.1 hb
                rw [hk, hm]; exact hf
              · exact absurd hf hc
            · exact absurd hf hc

/-- C54: a call whose attributes did not yet lead to a successful call runs the first registered implementation whose condition
accepts them; without one (or if a condition before it raises) it raises. -/
theorem C54_first (h : List (Event K F)) (k : K) (hk : ∀ h1 h2, h = h1 ++ .call k :: h2 → ((run h1).call k).2 = none) (f : F) :
    ((run h).call k).2 = some f ↔ IsFirst (run h).options k f := by
  have hn : (run h).cache.lookup k = none := by
    cases hc : (run h).cache.lookup k with
    | none => rfl
    | some g =>
      obtain ⟨h1, h2, e1, e2⟩ := cache_origin h k g hc
      rw [hk h1 h2 e1] at e2
      cases e2
  rw [call, hn, ← matchLoop_iff]
  simp only
  split <;> simp_all

/-- C54: which options there are, and in which order: new ones go to the end by default, to the front with position 0; calls
do not change them. -/
theorem C54_options (h : List (Event K F)) (c : K → Option Bool) (f : F) (k : K) :
    (run (h ++ [.register c f none])).options = (run h).options ++ [(c, f)] ∧
    (run (h ++ [.register c f (some 0)])).options = (c, f) :: (run h).options ∧
    (∀ p : Nat, p ≤ (run h).options.length →
      (run (h ++ [.register c f (some p)])).options = (run h).options.take p ++ (c, f) :: (run h).options.drop p) ∧
    (run (h ++ [.call k])).options = (run h).options ∧ (run ([] : List (Event K F))).options = [] := by
  refine ⟨?_, ?_, fun p _ => ?_, ?_, rfl⟩
  · rw [run_snoc, step, register, Option.getD_none, pyInsert]
    rw [if_neg (by omega), Int.toNat_natCast, List.take_length, List.drop_length]
  · rw [run_snoc]; simp [step, register, pyInsert]
  · rw [run_snoc, step, register, Option.getD_some, pyInsert]
    rw [if_neg (by omega), Int.toNat_natCast]
  · rw [run_snoc, step, call]
    split
    · rfl
    · split <;> rfl

theorem options_call (h : List (Event K F)) (k : K) : (run (h ++ [.call k])).options = (run h).options := by
  rw [run_snoc, step, call]
  split
  · rfl
  · split <;> rfl

theorem options_calls (h t : List (Event K F)) (ht : ∀ e ∈ t, ∃ k, e = .call k) : (run (h ++ t)).options = (run h).options := by
  induction t using List.reverseRecOn with
  | nil => simp
  | append_singleton t e ih =>
    obtain ⟨k, rfl⟩ := ht e (by simp)
    rw [← List.append_assoc, options_call]
    exact ih fun e he => ht e (by simp [he])

/-- C54: if nothing is registered any more after the first call with these attributes, every call with them runs the first of
all registered implementations whose condition accepts them. -/
theorem C54_dispatch (h t : List (Event K F)) (k : K) (hk : ∀ h1 h2, h ≠ h1 ++ .call k :: h2) (ht : ∀ e ∈ t, ∃ k', e = .call k') (f : F) :
    ((run (h ++ t)).call k).2 = some f ↔ IsFirst (run (h ++ t)).options k f := by
  have inv : ∀ g, (run (h ++ t)).cache.lookup k = some g → matchLoop k (run h).options = some g := by
    induction t using List.reverseRecOn with
    | nil =>
      intro g hg
      rw [List.append_nil] at hg
      obtain ⟨h1, h2, e, -⟩ := cache_origin _ k g hg
      exact absurd e (hk h1 h2)
    | append_singleton t e ih =>
      obtain ⟨k', rfl⟩ := ht e (by simp)
      have ht' : ∀ e ∈ t, ∃ k', e = .call k' := fun e he => ht e (by simp [he])
      intro g hg
      rw [← List.append_assoc, run_snoc, step, call] at hg
      split at hg
      · exact ih ht' g hg
      · split at hg
        · rename_i g' hm
          simp only [List.lookup_cons] at hg
          split at hg
          · rename_i hb
            cases beq_iff_eq.1 hb
            cases hg
            rwa [options_calls h t ht'] at hm
          · exact ih ht' g hg
        · exact ih ht' g hg
  rw [← matchLoop_iff, options_calls h t ht, call]
  split
  · rename_i g hg
    rw [inv g hg]
  · rw [options_calls h t ht]
    split <;> simp_all

/-- C54: so a registration at position 0 is ignored for attributes that were already seen, until the cache is emptied; for others
it takes effect at once. -/
theorem C54_late (h : List (Event K F)) (k k' : K) (f g : F) (hf : ((run h).call k).2 = some f)
    (hk' : ∀ h1 h2, h ++ [.call k] ≠ h1 ++ .call k' :: h2) (c : K → Option Bool) (hc' : c k' = some true) :
    ((run (h ++ .call k :: [.register c g (some 0)])).call k).2 = some f ∧
    ((run (h ++ .call k :: [.register c g (some 0)])).call k').2 = some g ∧
    (c k = some true → (({ run (h ++ .call k :: [.register c g (some 0)]) with cache := [] } : Dispatch K F).call k).2 = some g) := by
  have e : h ++ .call k :: [.register c g (some 0)] = (h ++ [.call k]) ++ [.register c g (some 0)] := by simp
  have ho := (C54_options (h ++ [.call k]) c g k).2.1
  refine ⟨C54_frozen h _ k f hf, ?_, fun hc => ?_⟩
  · rw [e, C54_first]
    · rw [ho]
      exact ⟨[], c, _, rfl, hc', by simp⟩
    · intro h1 h2 e'
      exfalso
      rcases List.eq_nil_or_concat h2 with rfl | ⟨l, x, rfl⟩
      · have := (List.append_inj' e' rfl).2
        cases this
      · have e2 : h ++ [.call k] ++ [.register c g (some 0)] = (h1 ++ .call k' :: l) ++ [x] := by rw [e']; simp
        exact hk' h1 l (List.append_inj' e2 rfl).1
  · rw [e, call, ho]
    simp [matchLoop, hc]

example : ((run [.register (fun n : Nat => some (n == 2)) "two" none, .register (fun _ => some true) "any" none, .call 1,
    .register (fun _ => some true) "late" (some 0)] ).call 1).2 = some "any" := rfl
example : ((run [.register (fun n : Nat => some (n == 2)) "two" none, .register (fun _ => some true) "any" none, .call 1,
    .register (fun _ => some true) "late" (some 0)] ).call 2).2 = some "late" := rfl
end

section
variable {N T Op : Type} [DecidableEq N] {str : T → String} {hashable : N → Bool} {build : N → Option Op}
open OpCache

/-- The type last assigned to `context.otype`. -/
def lastType (t : T) : List (OpCache.Event N T) → T
  | [] => t
  | .setType t' :: h => lastType t' h
  | .call _ :: h => lastType t h

theorem opStep_otype (s : OpCache N T Op) (e : OpCache.Event N T) : (s.step str hashable build e).otype = lastType s.otype [e] := by
  cases e with
  | setType t => rfl
  | call n =>
    simp only [OpCache.step, OpCache.call, lastType]
    split
    · rfl
    · split
      · rfl
      · split <;> rfl

theorem run_otype (t : T) (h : List (OpCache.Event N T)) : (OpCache.run str hashable build t h).otype = lastType t h := by
  have : ∀ (h : List (OpCache.Event N T)) (s : OpCache N T Op), (h.foldl (OpCache.step str hashable build) s).otype = lastType s.otype h := by
    intro h
    induction h with
    | nil => intro s; rfl
    | cons e h ih =>
      intro s
      rw [List.foldl_cons, ih, opStep_otype]
      cases e <;> rfl
  exact this h (OpCache.init t)

/-- What the cache contains. -/
def CacheOk (str : T → String) (hashable : N → Bool) (build : N → Option Op) (s : OpCache N T Op) : Prop :=
  ∀ n k a, s.cache.lookup (n, k) = some a → hashable n = true ∧ ∃ o, s.objects[a]? = some o ∧ str o.otype = k ∧ build n = some o.op

theorem opCall_spec {s : OpCache N T Op} (hs : CacheOk str hashable build s) (n : N) :
    CacheOk str hashable build (s.call str hashable build n).1 ∧ s.objects <+: (s.call str hashable build n).1.objects ∧
    (∀ p a, s.cache.lookup p = some a → (s.call str hashable build n).1.cache.lookup p = some a) ∧
    ((build n = none ∨ hashable n = false) → (s.call str hashable build n).2 = none) ∧
    ∀ op, build n = some op → hashable n = true → ∃ a o, (s.call str hashable build n).2 = some a ∧
      (s.call str hashable build n).1.objects[a]? = some o ∧ str o.otype = str s.otype ∧ o.op = op ∧
      (s.call str hashable build n).1.cache.lookup (n, str s.otype) = some a := by
  have hcall : s.call str hashable build n = match (if hashable n then s.cache.lookup (n, str s.otype) else none) with
      | some a => (s, some a)
      | none => match build n with
        | none => (s, none)
        | some op => if hashable n then
            ({ s with cache := ((n, str s.otype), s.objects.length) :: s.cache, objects := s.objects ++ [⟨s.otype, op⟩] }, some s.objects.length)
          else (s, none) := rfl
  rw [hcall]
  cases hh : hashable n
  · simp only [Bool.false_eq_true, if_false]
    cases hb : build n <;> exact ⟨hs, List.prefix_refl _, fun _ _ h => h, fun _ => rfl, by simp⟩
  · simp only [if_true]
    cases hl : s.cache.lookup (n, str s.otype) with
    | some a =>
      obtain ⟨-, o, o1, o2, o3⟩ := hs n _ a hl
      refine ⟨hs, List.prefix_refl _, fun _ _ h => h, ?_, ?_⟩
      · rintro (h | h)
        · rw [h] at o3; cases o3
        · cases h
      · intro op hop _
        rw [hop] at o3
        exact ⟨a, o, rfl, o1, o2, (Option.some.inj o3).symm, hl⟩
    | none =>
      cases hb : build n with
      | none => exact ⟨hs, List.prefix_refl _, fun _ _ h => h, fun _ => rfl, by simp⟩
      | some op =>
        simp only
        refine ⟨?_, List.prefix_append _ _, ?_, ?_, ?_⟩
        · intro m k a hm
          simp only [List.lookup_cons] at hm
          split at hm
          · rename_i hbq
            cases beq_iff_eq.1 hbq
            cases hm
            exact ⟨hh, ⟨s.otype, op⟩, by simp, rfl, hb⟩
          · obtain ⟨h1, o, o1, o2, o3⟩ := hs m k a hm
            refine ⟨h1, o, ?_, o2, o3⟩
            rw [List.getElem?_append_left (List.getElem?_eq_some_iff.1 o1).1]
            exact o1
        · intro p a hp
          simp only [List.lookup_cons]
          split
          · rename_i hbq
            rw [beq_iff_eq.1 hbq, hl] at hp
            cases hp
          · exact hp
        · rintro (h | h) <;> cases h
        · intro op' hop _
          cases hop
          exact ⟨_, ⟨s.otype, op⟩, rfl, by simp, rfl, rfl, by simp⟩

theorem opRun_spec (t : T) (h : List (OpCache.Event N T)) : CacheOk str hashable build (OpCache.run str hashable build t h) := by
  induction h using List.reverseRecOn with
  | nil => intro n k a ha; cases ha
  | append_singleton h e ih =>
    rw [OpCache.run, List.foldl_append]
    cases e with
    | setType t' => exact ih
    | call n => exact (opCall_spec ih n).1

theorem opRun_mono (s : OpCache N T Op) (hs : CacheOk str hashable build s) (h : List (OpCache.Event N T)) :
    s.objects <+: (h.foldl (OpCache.step str hashable build) s).objects ∧
    ∀ p a, s.cache.lookup p = some a → (h.foldl (OpCache.step str hashable build) s).cache.lookup p = some a := by
  induction h generalizing s with
  | nil => exact ⟨List.prefix_refl _, fun _ _ h => h⟩
  | cons e h ih =>
    rw [List.foldl_cons]
    cases e with
    | setType t' => exact ih (OpCache.step str hashable build s (.setType t')) hs
    | call n =>
      obtain ⟨h1, h2, h3, -⟩ := opCall_spec hs n
      obtain ⟨i1, i2⟩ := ih _ h1
      exact ⟨h2.trans i1, fun p a hp => i2 p a (h3 p a hp)⟩

/-- C55: after any history, an operator for `n` (name and arguments) is an object of the current type that wraps what the abstract
factory builds for `n`, provided that different types print differently; if the abstract factory raises, or the arguments
cannot be hashed, the call raises. -/
theorem C55_transparent (hstr : Function.Injective str) (t : T) (h : List (OpCache.Event N T)) (n : N) :
    ((build n = none ∨ hashable n = false) → ((OpCache.run str hashable build t h).call str hashable build n).2 = none) ∧
    ∀ op, build n = some op → hashable n = true →
      ∃ a, ((OpCache.run str hashable build t h).call str hashable build n).2 = some a ∧
        ((OpCache.run str hashable build t h).call str hashable build n).1.objects[a]? = some ⟨lastType t h, op⟩ := by
  obtain ⟨-, -, -, h1, h2⟩ := opCall_spec (opRun_spec (str := str) (hashable := hashable) (build := build) t h) n
  refine ⟨h1, fun op hop hh => ?_⟩
  obtain ⟨a, o, a1, a2, a3, a4, -⟩ := h2 op hop hh
  refine ⟨a, a1, ?_⟩
  rw [a2, ← run_otype (str := str) (hashable := hashable) (build := build) t h, ← hstr a3, ← a4]

/-- C55: a repeated call gives the same object, if the operator type is again the same, whatever happened in between. -/
theorem C55_same_object (t : T) (h h' : List (OpCache.Event N T)) (n : N) (a : Nat)
    (ha : ((OpCache.run str hashable build t h).call str hashable build n).2 = some a) (ht : lastType t (h ++ .call n :: h') = lastType t h) :
    ((OpCache.run str hashable build t (h ++ .call n :: h')).call str hashable build n).2 = some a := by
  have hs := opRun_spec (str := str) (hashable := hashable) (build := build) t h
  obtain ⟨h1, -, -, h2, h3⟩ := opCall_spec hs n
  have hh : hashable n = true := by
    cases hh : hashable n with
    | true => rfl
    | false => rw [h2 (.inr hh)] at ha; cases ha
  obtain ⟨op, hop⟩ : ∃ op, build n = some op := by
    cases hb : build n with
    | some op => exact ⟨op, rfl⟩
    | none => rw [h2 (.inl hb)] at ha; cases ha
  obtain ⟨b, o, b1, b2, b3, b4, b5⟩ := h3 op hop hh
  rw [ha] at b1
  cases b1
  have := (opRun_mono _ h1 h').2 _ _ b5
  have e : OpCache.run str hashable build t (h ++ .call n :: h') = h'.foldl (OpCache.step str hashable build) ((OpCache.run str hashable build t h).call str hashable build n).1 := by
    rw [OpCache.run, List.foldl_append, List.foldl_cons]; rfl
  rw [← e] at this
  rw [run_otype] at this
  rw [OpCache.call, run_otype, ht, hh]
  simp only [if_true]
  rw [this]

/-- C55: operator objects are never changed. -/
theorem C55_immutable (t : T) (h h' : List (OpCache.Event N T)) :
    (OpCache.run str hashable build t h).objects <+: (OpCache.run str hashable build t (h ++ h')).objects := by
  have := (opRun_mono _ (opRun_spec (str := str) (hashable := hashable) (build := build) t h) h').1
  rwa [OpCache.run, OpCache.run, List.foldl_append]

/-- C55: the proviso is needed: with two types that print the same (such as a class that was defined twice), the cache returns an
operator of the old type. -/
theorem C55_collision : ∃ (str : Bool → String) (h : List (OpCache.Event Nat Bool)) (a : Nat),
    ((OpCache.run str (fun _ => true) (fun n => some n) false h).call str (fun _ => true) (fun n => some n) 7).2 = some a ∧
    lastType false h = true ∧
    (((OpCache.run str (fun _ => true) (fun n => some n) false h).call str (fun _ => true) (fun n => some n) 7).1.objects[a]?).map (·.otype) = some false :=
  ⟨fun _ => "Op", [.call 7, .setType true], 0, rfl, rfl, rfl⟩

example : Function.Injective (fun b : Bool => if b then "NumpySparseOperator" else "NumpyEinsumOperator") := by decide

end
end Verif.Props
