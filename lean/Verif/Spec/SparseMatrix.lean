import Mathlib.Data.Matrix.Mul
import Verif.Model.SparseMatrix
import Verif.Spec.Multivector
/-! # Specification of sparse matrices: matrices over the Clifford algebra -/
namespace Verif.Spec
open Model
variable {R : Type} [CommRing R]

/-- Position of an entry before that of another one: row by row, from left to right. -/
def Before (e f : Entry R) : Prop := e.1 < f.1 ∨ (e.1 = f.1 ∧ e.2.1 < f.2.1)

/-- The container stands for the matrix `P`; its entries are stored in order, at most one per position. -/
structure IsMatrix (A : Alg) {m n : Nat} (M : GAMatrix R) (P : Matrix (Fin m) (Fin n) (Cl A R)) : Prop where
  rows : M.rows = m
  cols : M.cols = n
  sub : WfSub A M.sub
  mem : ∀ e ∈ M.entries, e.1 < m ∧ e.2.1 < n ∧ e.2.2.length = M.sub.blades.length
  order : M.entries.Pairwise Before
  ne : M.entries ≠ []
  entry : ∀ (i : Fin m) (j : Fin n), P i j = (M.entries.map fun e => if e.1 = (i : Nat) ∧ e.2.1 = (j : Nat) then val A ⟨M.sub, e.2.2⟩ else 0).sum

/-- The array stands for the vector `v`. -/
structure IsVector (A : Alg) {n : Nat} (x : GAVector R) (v : Fin n → Cl A R) : Prop where
  sub : WfSub A x.sub
  len : x.vals.length = n
  lens : ∀ u ∈ x.vals, u.length = x.sub.blades.length
  entry : ∀ i : Fin n, v i = val A ⟨x.sub, x.vals.getD i []⟩

/-- The operators `f` on multivectors compute the bilinear map `β`. -/
def Realises (A : Alg) (f : SubSpace → SubSpace → Option (Operator Int)) (β : Cl A R →ₗ[R] Cl A R →ₗ[R] Cl A R) : Prop :=
  ∀ S T, WfSub A S → WfSub A T → ∃ o, f S T = some o ∧ WfOp A o ∧ o.inputs = [S, T] ∧
    ∀ x y : MV R, WfMV A x → WfMV A y → x.sub = S → y.sub = T → Gives A (MV.call (some o) [x, y]) (β (val A x) (val A y))

end Verif.Spec
