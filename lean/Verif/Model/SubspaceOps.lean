import Verif.Model.OperatorFactory
/-!
# Model of the operator-dependent part of `numga/subspace/subspace.py` and `numga/subspace/factory.py`

The `@cache` and `cached_property` decorators are not modelled: all functions are deterministic.  Two loops are modelled
with a bound on the number of rounds; the theorems show that the bound does not matter.  `none` results are Python exceptions.
-/
namespace Verif.Model
variable (A : Alg)

namespace SubSpace

/-- `product`, numga/subspace/subspace.py:164-166; `Operator.subspace` is the output, numga/operator/operator.py:31-34. -/
def product (S T : SubSpace) : Option SubSpace := (Factory.product A (.sub S) (.sub T)).map (·.output)
/-- `wedge`, numga/subspace/subspace.py:178-180. -/
def wedge (S T : SubSpace) : Option SubSpace := (Factory.wedge A (.sub S) (.sub T)).map (·.output)
/-- `inner`, numga/subspace/subspace.py:181-183. -/
def inner (S T : SubSpace) : Option SubSpace := (Factory.inner A (.sub S) (.sub T)).map (·.output)
/-- `reject`, numga/subspace/subspace.py:184-186. -/
def reject (S T : SubSpace) : Option SubSpace := do (← S.wedge A T).inner A T
/-- `squared`, numga/subspace/subspace.py:188-190. -/
def squared (S : SubSpace) : Option SubSpace := (Factory.squared A (.sub S)).map (·.output)
/-- `cubed`, numga/subspace/subspace.py:191-193. -/
def cubed (S : SubSpace) : Option SubSpace := (Factory.cubed A (.sub S)).map (·.output)
/-- `symmetric_reverse`, numga/subspace/subspace.py:194-196. -/
def symmetricReverse (S : SubSpace) : Option SubSpace := (Factory.symmetricReverse A (.sub S)).map (·.output)
/-- `symmetric_involute`, numga/subspace/subspace.py:197-199. -/
def symmetricInvolute (S : SubSpace) : Option SubSpace := (Factory.symmetricInvolute A (.sub S)).map (·.output)
/-- `symmetric_conjugate`, numga/subspace/subspace.py:200-202. -/
def symmetricConjugate (S : SubSpace) : Option SubSpace := (Factory.symmetricConjugate A (.sub S)).map (·.output)
/-- `symmetric_scalar_negation`, numga/subspace/subspace.py:203-205. -/
def symmetricScalarNegation (S : SubSpace) : Option SubSpace := (Factory.symmetricScalarNegation A (.sub S)).map (·.output)
/-- `symmetric_pseudoscalar_negation`, numga/subspace/subspace.py:206-208. -/
def symmetricPseudoscalarNegation (S : SubSpace) : Option SubSpace :=
  (Factory.symmetricPseudoscalarNegation A (.sub S)).map (·.output)

/-- `is_subalgebra`, numga/subspace/subspace.py:278-281. -/
def isSubalgebra (S : SubSpace) : Option Bool := do some (S.contains (← S.product A S))

/-- `while subspace != previous: previous = subspace; subspace = step(subspace)`, as in
numga/subspace/subspace.py:289-292 and 299-302.  `fuel` bounds the number of rounds; running out of it is also `none`. -/
def iterate (step : SubSpace → Option SubSpace) : Nat → SubSpace → Option SubSpace
  | 0, _ => none
  | fuel + 1, S => do
    let T ← step S
    if T = S then some T else iterate step fuel T

/-- `minimal_subalgebra`, numga/subspace/subspace.py:283-292. -/
def minimalSubalgebra (fuel : Nat) (S : SubSpace) : Option SubSpace :=
  iterate (fun T => do T.union A (← S.product A T)) fuel S

/-- `minimal_exponential`, numga/subspace/subspace.py:293-302. -/
def minimalExponential (fuel : Nat) (S : SubSpace) : Option SubSpace := do
  iterate (fun T => do T.union A (← T.squared A)) fuel (← S.union A (← A.scalar))

/-- The six products tried by `is_n_simple`, in that order, numga/subspace/subspace.py:309-316 and 331-348. -/
def selfProducts : List (SubSpace → Option SubSpace) :=
  [squared A, symmetricReverse A, symmetricInvolute A, symmetricConjugate A, symmetricScalarNegation A,
    symmetricPseudoscalarNegation A]

/-- `is_n_simple`, numga/subspace/subspace.py:304-316 with 331-348, for `n ≥ 0` (a negative `n` recurses forever);
`self.inside.scalar()` is `self in scalar()`, numga/subspace/namespaces.py:14-20. -/
def isNSimple : Nat → SubSpace → Option Bool
  | 0, S => do some ((← A.scalar).contains S)
  | n + 1, S => (selfProducts A).anyM fun f => do isNSimple n (← f S)

/-- `is_squared_n_simple`, numga/subspace/subspace.py:331-333, for `n + 1`. -/
def isSquaredSimple (n : Nat) (S : SubSpace) : Option Bool := do isNSimple A n (← S.squared A)
/-- `is_reverse_n_simple`, numga/subspace/subspace.py:334-336, for `n + 1`. -/
def isReverseSimple (n : Nat) (S : SubSpace) : Option Bool := do isNSimple A n (← S.symmetricReverse A)
/-- `is_involute_n_simple`, numga/subspace/subspace.py:337-339, for `n + 1`. -/
def isInvoluteSimple (n : Nat) (S : SubSpace) : Option Bool := do isNSimple A n (← S.symmetricInvolute A)
/-- `is_conjugate_n_simple`, numga/subspace/subspace.py:340-342, for `n + 1`. -/
def isConjugateSimple (n : Nat) (S : SubSpace) : Option Bool := do isNSimple A n (← S.symmetricConjugate A)
/-- `is_scalar_negation_n_simple`, numga/subspace/subspace.py:343-345, for `n + 1`. -/
def isScalarNegationSimple (n : Nat) (S : SubSpace) : Option Bool := do isNSimple A n (← S.symmetricScalarNegation A)
/-- `is_pseudoscalar_negation_n_simple`, numga/subspace/subspace.py:346-348, for `n + 1`. -/
def isPseudoscalarNegationSimple (n : Nat) (S : SubSpace) : Option Bool := do
  isNSimple A n (← S.symmetricPseudoscalarNegation A)

/-- The loop of `simplicity` over the remaining values of `n`, numga/subspace/subspace.py:325-328; the inner `none` is
Python's `None`. -/
def simplicityFrom (S : SubSpace) : List Nat → Option (Option Nat)
  | [] => some none
  | n :: ns => do if ← isNSimple A n S then some (some n) else simplicityFrom S ns
/-- `simplicity`, numga/subspace/subspace.py:318-328. -/
def simplicity (S : SubSpace) : Option (Option Nat) := simplicityFrom A S (List.range (A.n / 2 + 2))

/-- `symmetric_alt_product`, numga/subspace/subspace.py:351-358. -/
def symmetricAlt (S : SubSpace) : Option SubSpace := (Factory.inverseFactorCompletedAlt A (.sub S)).map (·.output)
/-- `is_alt_n_simple`, numga/subspace/subspace.py:359-361, for `n + 2`. -/
def isAltSimple (n : Nat) (S : SubSpace) : Option Bool := do isNSimple A n (← S.symmetricAlt A)

/-- `scalar_degenerate`, numga/subspace/subspace.py:156-159. -/
def scalarDegenerate (S : SubSpace) : Option SubSpace := do (← A.scalar).union A (← S.degenerate A)
/-- `is_degenerate_scalar`, numga/subspace/subspace.py:365-368. -/
def isDegenerateScalar (S : SubSpace) : Option Bool := do some (S == (← (← A.scalar).union A (← S.degenerate A)))
/-- `is_degenerate`, numga/subspace/subspace.py:372-374. -/
def isDegenerate (S : SubSpace) : Option Bool := do some (S == (← S.degenerate A))
/-- `is_study`, numga/subspace/subspace.py:394-397. -/
def isStudy (S : SubSpace) : Option Bool := S.isScalarNegationSimple A 0

end SubSpace

/-- `k_reflection`, numga/subspace/factory.py:158-160; a negative `k` recurses forever. -/
def Alg.kReflection : Nat → Option SubSpace
  | 0 => A.scalar
  | k + 1 => do (← Alg.kReflection k).product A (← A.vector)
/-- `translator`, numga/subspace/factory.py:145-147, with `bireflection`, 163-164. -/
def Alg.translator : Option SubSpace := do (← A.kReflection 2).difference A (← (← A.bivector).nondegenerate A)
/-- `rotor`, numga/subspace/factory.py:148-150. -/
def Alg.rotor : Option SubSpace := do (← A.evenGrade).nondegenerate A
/-- `degenerate`, numga/subspace/factory.py:189-194. -/
def Alg.degenerateSpace : Option SubSpace := do
  A.fromBlades ((← A.full).blades.filter fun b => decide (A.bitDot b A.zeros > 0))
/-- `scalar_degenerate`, numga/subspace/factory.py:195-198. -/
def Alg.scalarDegenerateSpace : Option SubSpace := do (← A.degenerateSpace).union A (← A.scalar)
/-- `nondegenerate`, numga/subspace/factory.py:199-202. -/
def Alg.nondegenerateSpace : Option SubSpace := do (← A.full).difference A (← A.degenerateSpace)

end Verif.Model
