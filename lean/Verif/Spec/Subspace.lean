import Verif.Spec.Algebra
import Verif.Model.Subspace
/-! # Specification vocabulary for subspaces: sets of blades in canonical order -/
namespace Verif.Spec
open Model

/-- Number of basis vectors of a bit pattern of at most 32 bits. -/
def popcount (b : Nat) : Nat := (bitSet 32 b).card

/-- Canonical order of blades: by number of basis vectors, then by bit pattern. -/
def bladeLt (a b : Nat) : Prop := popcount a < popcount b ∨ (popcount a = popcount b ∧ a < b)

/-- A well-formed subspace of `A`: blades of `A` in strictly increasing canonical order. -/
structure WfSub (A : Alg) (S : SubSpace) : Prop where
  lt : ∀ b ∈ S.blades, b < 2 ^ A.n
  sorted : S.blades.Pairwise bladeLt

/-- `S` is the well-formed subspace with exactly the blades satisfying `p`. -/
def IsSpace (A : Alg) (S : SubSpace) (p : Nat → Prop) : Prop :=
  WfSub A S ∧ ∀ b, b ∈ S.blades ↔ b < 2 ^ A.n ∧ p b

/-- `g`, possibly negative as in Python, denotes grade `k` of an `n`-dimensional algebra. -/
def IsGrade (n : Nat) (g : Int) (k : Nat) : Prop := k ≤ n ∧ (g = k ∨ g = (k : Int) - (n + 1))

end Verif.Spec
