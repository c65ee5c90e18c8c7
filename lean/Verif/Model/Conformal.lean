import Verif.Model.Roots
import Verif.Model.MultivectorFactory
import Verif.Model.Description
/-!
# Model of `numga/examples/conformal.py`

The class `Conformal`, and where it differs the class `ConformalContextMixin`.  Coefficients are elements of a field.  The
methods that `Conformal.algebra` and `Conformal.__init__` attach to the factories become functions of the algebra.
`project`, the operator `unembed` of the mixin and the injection of classes into instances are not modelled.
-/
namespace Verif.Model.Conformal

/-- `hyperbolic_algebra`, numga/examples/conformal.py:150-152. -/
def hyperbolicAlgebra : Option Alg := Alg.fromStr "p+n-".toList

/-- `algebra`, numga/examples/conformal.py:154-169. -/
def algebra (description : List Char) : Option Alg := do (← Alg.fromStr description).mul (← hyperbolicAlgebra)

/-- `*X, p, n = l`, numga/examples/conformal.py:159,174; `none`: fewer than two elements. -/
def lastTwo {α : Type} (l : List α) : Option (α × α) :=
  match l.reverse with
  | n :: p :: _ => some (p, n)
  | _ => none

variable (A : Alg)

/-- `algebra.subspace.N`, numga/examples/conformal.py:166. -/
def subspaceN : Option SubSpace := do
  let (p, n) ← lastTwo (← MVFactory.basisSpaces A)
  p.union A n

/-- `algebra.subspace.euclidian`, numga/examples/conformal.py:167. -/
def euclidianSpace : Option SubSpace := do (← A.vector).difference A (← subspaceN A)

variable {R : Type} [Field R] [DecidableEq R] (fuel : Nat)

/-- `self.ni`, numga/examples/conformal.py:174-176. -/
def ni : Except Fail (MV R) := do
  let (p, n) ← lift (lastTwo (← lift (MVFactory.basis A)))
  lift (p.add A (.mv n))

/-- `self.no`, numga/examples/conformal.py:174-177. -/
def no : Except Fail (MV R) := do
  let (p, n) ← lift (lastTwo (← lift (MVFactory.basis A)))
  (← lift (n.sub' A (.mv p))).truediv A fuel (.num 2)

/-- `self.N`, numga/examples/conformal.py:178. -/
def N : Except Fail (MV R) := do lift ((← ni A).wedge A (← no A fuel))

/-- `context.multivector.euclidian`, numga/examples/conformal.py:183. -/
def euclidian (x : List R) : Except Fail (MV R) := do lift (MVFactory.multivector A (some x) (some (← lift (euclidianSpace A))))

/-- `embed_point`, numga/examples/conformal.py:190-194 (and lines 71-76). -/
def embedPoint (P : List R) (r : R) : Except Fail (MV R) := do
  let p ← euclidian A P
  let s ← lift ((← lift (p.normSquared A)).sub' A (.num (r * r)))
  let w ← (← lift ((← ni A).mul A (.mv s))).truediv A fuel (.num 2)
  lift ((← lift (w.add A (.mv (← no A fuel)))).add A (.mv p))

/-- `assert s in S` and `assert s.inside.S()`, numga/examples/conformal.py:197,201,206,216. -/
def assertIn (s S : SubSpace) : Except Fail Unit := if S.contains s then .ok () else .error .raised

/-- `point_position`, numga/examples/conformal.py:196-202. -/
def pointPosition (p : MV R) : Except Fail (MV R) := do
  assertIn p.sub (← lift A.vector)
  let N ← N A fuel
  let pos ← lift ((← lift (p.wedge A N)).mul A (.mv N))
  assertIn pos.sub (← lift (euclidianSpace A))
  return pos

variable (rt : Roots R)

/-- `split_points`, numga/examples/conformal.py:204-217, for one bivector and one of the two signs that the array
`S = [[1], [-1]]` holds: the operations broadcast over that axis. -/
def splitPoint (T : MV R) (sign : R) : Except Fail (MV R) := do
  assertIn T.sub (← lift A.bivector)
  let b ← (← lift ((← lift (T.normSquared A)).mul A (.num (-1)))).sqrt rt
  let F ← T.truediv A fuel (.mv b)
  let S ← lift (MVFactory.kVector A 0 (some [sign]))
  let P ← (← lift ((← lift (F.mul A (.mv S))).add A (.num 1))).truediv A fuel (.num 2)
  let Tn ← lift (T.inner A (← ni A))
  let AB ← lift (P.inner A Tn)
  assertIn AB.sub (← lift A.vector)
  return AB

/-- `split_points`, numga/examples/conformal.py:204-217: the two elements of the result. -/
def splitPoints (T : MV R) : Except Fail (MV R × MV R) := do
  return (← splitPoint A fuel rt T 1, ← splitPoint A fuel rt T (-1))

/-- `split_points` of the mixin, numga/examples/conformal.py:90-103. -/
def splitPointsMixin (T : MV R) : Except Fail (MV R × MV R) := do
  assertIn T.sub (← lift A.bivector)
  let b ← (← lift ((← lift (T.normSquared A)).mul A (.num (-1)))).sqrt rt
  let F ← T.truediv A fuel (.mv b)
  let P ← (← lift (F.add A (.num 1))).truediv A fuel (.num 2)
  let Pb ← (← lift (F.add A (.num (-1)))).truediv A fuel (.num (-2))
  let Tn ← lift (T.inner A (← ni A))
  let b' ← lift (P.inner A Tn)
  let a' ← lift (Pb.inner A Tn)
  assertIn a'.sub (← lift A.vector)
  assertIn b'.sub (← lift A.vector)
  return (a', b')

/-- `normalize`, numga/examples/conformal.py:219-221. -/
def normalize (o : MV R) : Except Fail (MV R) := do
  let d ← lift ((← lift ((← lift (o.reverse A)).inner A (← ni A))).neg)
  o.truediv A fuel (.mv d)

end Verif.Model.Conformal
