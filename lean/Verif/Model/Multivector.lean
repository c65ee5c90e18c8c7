import Verif.Model.Eval
import Verif.Model.OperatorFactory
/-!
# Model of `numga/multivector/multivector.py` with the numpy backend

A multivector is a subspace with one coefficient per blade; broadcasting axes are not modelled (every operation acts
on them pointwise).  Coefficients are elements of an arbitrary commutative ring (a field where the code divides)
instead of floating-point numbers.  `none` results are Python exceptions.
-/
namespace Verif.Model

/-- `AbstractMultiVector`, numga/multivector/multivector.py:10-33; the context is the algebra parameter of the methods. -/
structure MV (R : Type) where
  sub : SubSpace
  vals : List R
  deriving DecidableEq

namespace MV
variable {R : Type} [CommRing R]

/-- `NumpyMultiVector.construct` with values, numga/backend/numpy/multivector.py:12-29, including the assertion. -/
def construct (vals : List R) (S : SubSpace) : Option (MV R) := if vals.length = S.blades.length then some ⟨S, vals⟩ else none

/-- `NumpyMultiVector.construct` without values, numga/backend/numpy/multivector.py:13-16. -/
def default (S : SubSpace) : MV R := ⟨S, S.blades.map fun b => if b = 0 then 1 else 0⟩

/-- `copy(values=...)`, numga/multivector/multivector.py:47-52. -/
def copy (x : MV R) (vals : List R) : Option (MV R) := construct vals x.sub

/-- `NumpyEinsumOperator.__call__` on multivectors, numga/backend/numpy/operator.py:117-132, for the operator that the
factory call `op` returns (or raises).  `np.einsum` raises when the number of operands or the length of an operand does
not fit the kernel.  (It would repeat an operand of length one; the methods below never do that.) -/
def call (op : Option (Operator Int)) (args : List (MV R)) : Option (MV R) := do
  let o ← op
  if o.inputs.map (·.blades.length) = args.map (·.vals.length) then
    construct (o.apply R (args.map (·.vals))) o.output
  else none

variable (A : Alg)

/-- `dual`, numga/multivector/multivector.py:64-66. -/
def dual (x : MV R) : Option (MV R) := call (Factory.rightHodge A (.sub x.sub)) [x]
/-- `dual_inverse`, numga/multivector/multivector.py:67-69. -/
def dualInverse (x : MV R) : Option (MV R) := call (Factory.rightHodgeInverse A (.sub x.sub)) [x]
/-- `reverse` and `__invert__`, numga/multivector/multivector.py:70-72,269-271. -/
def reverse (x : MV R) : Option (MV R) := call (Factory.reverse A (.sub x.sub)) [x]
/-- `involute`, numga/multivector/multivector.py:73-75. -/
def involute (x : MV R) : Option (MV R) := call (Factory.involute A (.sub x.sub)) [x]
/-- `conjugate`, numga/multivector/multivector.py:76-78. -/
def conjugate (x : MV R) : Option (MV R) := call (Factory.conjugate A (.sub x.sub)) [x]
/-- `study_conjugate`, numga/multivector/multivector.py:79-81. -/
def studyConjugate (x : MV R) : Option (MV R) := call (Factory.studyConjugate A x.sub) [x]
/-- `scalar_negation`, numga/multivector/multivector.py:82-84. -/
def scalarNegation (x : MV R) : Option (MV R) := call (Factory.scalarNegation A (.sub x.sub)) [x]
/-- `pseudoscalar_negation`, numga/multivector/multivector.py:85-87. -/
def pseudoscalarNegation (x : MV R) : Option (MV R) := call (Factory.pseudoscalarNegation A (.sub x.sub)) [x]

/-- `product`, numga/multivector/multivector.py:90-92. -/
def product (x y : MV R) : Option (MV R) := call (Factory.product A (.sub x.sub) (.sub y.sub)) [x, y]
/-- `anti_product`, numga/multivector/multivector.py:93-95. -/
def antiProduct (x y : MV R) : Option (MV R) := call (Factory.antiProduct A (.sub x.sub) (.sub y.sub)) [x, y]
/-- `wedge`, `outer` and `^`, numga/multivector/multivector.py:96-98,280-281. -/
def wedge (x y : MV R) : Option (MV R) := call (Factory.wedge A (.sub x.sub) (.sub y.sub)) [x, y]
/-- `anti_wedge`, numga/multivector/multivector.py:99-100. -/
def antiWedge (x y : MV R) : Option (MV R) := call (Factory.antiWedge A (.sub x.sub) (.sub y.sub)) [x, y]
/-- `regressive` and `&`, numga/multivector/multivector.py:101-102,282-283. -/
def regressive (x y : MV R) : Option (MV R) := call (Factory.regressive A (.sub x.sub) (.sub y.sub)) [x, y]
/-- `cross`, numga/multivector/multivector.py:103-104. -/
def cross (x y : MV R) : Option (MV R) := call (Factory.cross A (.sub x.sub) (.sub y.sub)) [x, y]
/-- `inner` and `|`, numga/multivector/multivector.py:106-107,284-285. -/
def inner (x y : MV R) : Option (MV R) := call (Factory.inner A (.sub x.sub) (.sub y.sub)) [x, y]
/-- `anti_inner`, numga/multivector/multivector.py:108-109. -/
def antiInner (x y : MV R) : Option (MV R) := call (Factory.antiInner A (.sub x.sub) (.sub y.sub)) [x, y]
/-- `scalar_product`, numga/multivector/multivector.py:110-111. -/
def scalarProduct (x y : MV R) : Option (MV R) := call (Factory.scalarProduct A (.sub x.sub) (.sub y.sub)) [x, y]
/-- `bivector_product`, numga/multivector/multivector.py:112-113. -/
def bivectorProduct (x y : MV R) : Option (MV R) := call (Factory.bivectorProduct A (.sub x.sub) (.sub y.sub)) [x, y]
/-- `trivector_product`, numga/multivector/multivector.py:114-115. -/
def trivectorProduct (x y : MV R) : Option (MV R) :=
  call (do Factory.nProduct A (.sub x.sub) (.sub y.sub) (← A.kVector 3)) [x, y]
/-- `commutator` and `commutator_product`, numga/multivector/multivector.py:120-121,129-130. -/
def commutator (x y : MV R) : Option (MV R) := call (Factory.commutator A (.sub x.sub) (.sub y.sub)) [x, y]
/-- `commutator_anti` and `commutator_anti_product`, numga/multivector/multivector.py:122-123,131-132. -/
def commutatorAnti (x y : MV R) : Option (MV R) := call (Factory.commutatorAnti A (.sub x.sub) (.sub y.sub)) [x, y]
/-- `anti_commutator_anti` and `anti_commutator_anti_product`, numga/multivector/multivector.py:124-125,133-134. -/
def antiCommutatorAnti (x y : MV R) : Option (MV R) := call (Factory.antiCommutatorAnti A (.sub x.sub) (.sub y.sub)) [x, y]
/-- `anti_commutator` and `anti_commutator_product`, numga/multivector/multivector.py:126-127,135-136. -/
def antiCommutator (x y : MV R) : Option (MV R) := call (Factory.antiCommutator A (.sub x.sub) (.sub y.sub)) [x, y]
/-- `left_contract`, numga/multivector/multivector.py:138-139. -/
def leftContract (x y : MV R) : Option (MV R) := call (Factory.leftContraction A (.sub x.sub) (.sub y.sub)) [x, y]
/-- `right_contract`, numga/multivector/multivector.py:140-141. -/
def rightContract (x y : MV R) : Option (MV R) := call (Factory.rightContraction A (.sub x.sub) (.sub y.sub)) [x, y]
/-- `reverse_product`, numga/multivector/multivector.py:144-145. -/
def reverseProduct (x y : MV R) : Option (MV R) := call (Factory.reverseProduct A (.sub x.sub) (.sub y.sub)) [x, y]
/-- `involute_product`, numga/multivector/multivector.py:146-147. -/
def involuteProduct (x y : MV R) : Option (MV R) := call (Factory.involuteProduct A (.sub x.sub) (.sub y.sub)) [x, y]
/-- `conjugate_product`, numga/multivector/multivector.py:148-149. -/
def conjugateProduct (x y : MV R) : Option (MV R) := call (Factory.conjugateProduct A (.sub x.sub) (.sub y.sub)) [x, y]
/-- `scalar_negation_product`, numga/multivector/multivector.py:150-151. -/
def scalarNegationProduct (x y : MV R) : Option (MV R) :=
  call (Factory.scalarNegationProduct A (.sub x.sub) (.sub y.sub)) [x, y]
/-- `pseudoscalar_negation_product`, numga/multivector/multivector.py:152-153. -/
def pseudoscalarNegationProduct (x y : MV R) : Option (MV R) :=
  call (Factory.pseudoscalarNegationProduct A (.sub x.sub) (.sub y.sub)) [x, y]
/-- `anti_reverse_product`, numga/multivector/multivector.py:155-156. -/
def antiReverseProduct (x y : MV R) : Option (MV R) := call (Factory.antiReverseProduct A (.sub x.sub) (.sub y.sub)) [x, y]

/-- `squared`, numga/multivector/multivector.py:158-161. -/
def squared (x : MV R) : Option (MV R) := call (Factory.squared A (.sub x.sub)) [x, x]
/-- `symmetric_reverse_product`, numga/multivector/multivector.py:162-165. -/
def symmetricReverse (x : MV R) : Option (MV R) := call (Factory.symmetricReverse A (.sub x.sub)) [x, x]
/-- `symmetric_involute_product`, numga/multivector/multivector.py:166-169. -/
def symmetricInvolute (x : MV R) : Option (MV R) := call (Factory.symmetricInvolute A (.sub x.sub)) [x, x]
/-- `symmetric_conjugate_product`, numga/multivector/multivector.py:170-173. -/
def symmetricConjugate (x : MV R) : Option (MV R) := call (Factory.symmetricConjugate A (.sub x.sub)) [x, x]
/-- `symmetric_scalar_negation_product`, numga/multivector/multivector.py:174-177. -/
def symmetricScalarNegation (x : MV R) : Option (MV R) := call (Factory.symmetricScalarNegation A (.sub x.sub)) [x, x]
/-- `symmetric_pseudoscalar_negation_product`, numga/multivector/multivector.py:178-181. -/
def symmetricPseudoscalarNegation (x : MV R) : Option (MV R) :=
  call (Factory.symmetricPseudoscalarNegation A (.sub x.sub)) [x, x]

/-- `sandwich` and `>>`, numga/multivector/multivector.py:184-190,354-355. -/
def sandwich (x y : MV R) : Option (MV R) := call (Factory.sandwich A (.sub x.sub) y.sub) [x, y, x]
/-- `reverse_sandwich` and `<<`, numga/multivector/multivector.py:191-192,356-357. -/
def reverseSandwich (x y : MV R) : Option (MV R) := call (Factory.reverseSandwich A x.sub y.sub) [x, y, x]
/-- `full_sandwich`, numga/multivector/multivector.py:193-194. -/
def fullSandwich (x y : MV R) : Option (MV R) := call (Factory.fullSandwich A (.sub x.sub) (.sub y.sub)) [x, y, x]
/-- `transform`, numga/multivector/multivector.py:195-196. -/
def transform (x y : MV R) : Option (MV R) := call (Factory.transform A x.sub y.sub) [x, y, x]
/-- `inverse_factor`, numga/multivector/multivector.py:199-200. -/
def inverseFactor (x : MV R) : Option (MV R) := call (Factory.inverseFactor A (.sub x.sub)) [x, x, x]

/-- `degenerate`, numga/multivector/multivector.py:205-206. -/
def degenerate (x : MV R) : Option (MV R) := call (Factory.degenerate A (.sub x.sub)) [x]
/-- `nondegenerate`, numga/multivector/multivector.py:207-208. -/
def nondegenerate (x : MV R) : Option (MV R) := call (Factory.nondegenerate A (.sub x.sub)) [x]

/-- `select_subspace`, numga/multivector/multivector.py:238-239. -/
def selectSubspace (x : MV R) (S : SubSpace) : Option (MV R) := call (Factory.select A (.sub x.sub) S) [x]
/-- `restrict_subspace`, numga/multivector/multivector.py:240-241. -/
def restrictSubspace (x : MV R) (S : SubSpace) : Option (MV R) := call (Factory.restrict A x.sub S) [x]
/-- `select_grade`, numga/multivector/multivector.py:242-243. -/
def selectGrade (x : MV R) (k : Int) : Option (MV R) := do x.selectSubspace A (← A.kVector k)
/-- `restrict_grade`, numga/multivector/multivector.py:244-245. -/
def restrictGrade (x : MV R) (k : Int) : Option (MV R) := do x.restrictSubspace A (← A.kVector k)
/-- `select[g, ...]`, numga/multivector/namespaces.py:23-26. -/
def selectGrades (x : MV R) (gs : List Int) : Option (MV R) := do x.selectSubspace A (← A.fromGrades gs)
/-- `restrict[g, ...]`, numga/multivector/namespaces.py:41-44. -/
def restrictGrades (x : MV R) (gs : List Int) : Option (MV R) := do x.restrictSubspace A (← A.fromGrades gs)

/-- An operand of an overloaded operator: a multivector or a plain number. -/
inductive Operand (R : Type) where
  | mv (x : MV R)
  | num (c : R)

/-- `upcast`, numga/multivector/multivector.py:299-305. -/
def upcast : Operand R → Option (MV R)
  | .mv x => some x
  | .num c => do construct [c] (← A.scalar)

/-- `combine` after upcasting, numga/multivector/multivector.py:247-261. -/
def combine (x y : MV R) (sign : R) : Option (MV R) :=
  if x.sub = y.sub then x.copy (List.zipWith (fun a b => a + b * sign) x.vals y.vals)
  else do
    let U ← x.sub.union A y.sub
    let a ← x.selectSubspace A U
    let b ← y.selectSubspace A U
    construct (List.zipWith (fun a b => a + b * sign) a.vals b.vals) U

/-- `__neg__`, numga/multivector/multivector.py:264-265. -/
def neg (x : MV R) : Option (MV R) := x.copy (x.vals.map (- ·))
/-- `__add__` and `__radd__`, numga/multivector/multivector.py:287-290. -/
def add (x : MV R) (y : Operand R) : Option (MV R) := do x.combine A (← upcast A y) 1
/-- `__sub__`, numga/multivector/multivector.py:292-294. -/
def sub' (x : MV R) (y : Operand R) : Option (MV R) := do x.combine A (← upcast A y) (-1)
/-- `__rsub__`, numga/multivector/multivector.py:295-297. -/
def rsub (x : MV R) (y : Operand R) : Option (MV R) := do (← upcast A y).combine A x (-1)
/-- `__mul__`, numga/multivector/multivector.py:273-275. -/
def mul (x : MV R) (y : Operand R) : Option (MV R) := do x.product A (← upcast A y)
/-- `__rmul__`, numga/multivector/multivector.py:276-278. -/
def rmul (x : MV R) (y : Operand R) : Option (MV R) := do (← upcast A y).product A x

end MV
end Verif.Model
