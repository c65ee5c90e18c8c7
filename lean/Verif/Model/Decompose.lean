import Verif.Model.LogExp
/-!
# Model of `numga/multivector/extension/decompose.py`

`register` returns the undecorated function, so `motor_translator(m)`, `motor_rotor(m)` and `motor_split(m, o)` inside that file
are the last functions of these names, without dispatch.  `decompose_polar` is not modelled: its condition asks for a subspace
`study` that the factory does not have, so it always raises.
-/
namespace Verif.Model
variable (A : Alg)

/-- The conditions registered for `decompose_invariant`, numga/multivector/extension/decompose.py:41-48; `true` stands for the first
implementation. -/
def invariantOptions : List ((SubSpace → Option Bool) × Bool) :=
  [(fun S => do if ← insideBivector A S then insideScalar A (← S.squared A) else some false, true),
    (fun S => do if ← insideBivector A S then (← S.squared A).isStudy A else some false, false)]

/-- `s.inside.rotor()`, numga/subspace/namespaces.py:14-20. -/
def insideRotor (S : SubSpace) : Option Bool := do some ((← A.rotor).contains S)
/-- `s.inside.antivector()`, numga/subspace/namespaces.py:14-20 and numga/subspace/factory.py:118-119. -/
def insideAntivector (S : SubSpace) : Option Bool := do some ((← A.kVector (-2)).contains S)

/-- The conditions registered for `motor_translator`, numga/multivector/extension/decompose.py:52-61, and for `motor_rotor`,
lines 65-72; `true` stands for the first implementation. -/
def motorPartOptions : List ((SubSpace → Option Bool) × Bool) := [(insideRotor A, true), (insideEven A, false)]

/-- The implementations registered for `motor_split`, numga/multivector/extension/decompose.py:79-100. -/
inductive SplitRule where
  | euclidian | blade | default
  deriving DecidableEq, Repr

/-- `m.inside.motor() and o.inside.antivector()`, numga/multivector/extension/decompose.py:79,86,95. -/
def splitCondition (k : SubSpace × SubSpace) : Option Bool := do
  if ← insideEven A k.1 then insideAntivector A k.2 else some false
/-- The conditions and implementations registered for `motor_split`, numga/multivector/extension/decompose.py:79-100, with `is_blade`,
numga/subspace/subspace.py:48-50. -/
def splitOptions : List ((SubSpace × SubSpace → Option Bool) × SplitRule) :=
  [(fun k => do if ← splitCondition A k then (← k.2.complement A).isDegenerate A else some false, .euclidian),
    (fun k => do if ← splitCondition A k then some (k.2.len == 1) else some false, .blade),
    (splitCondition A, .default)]

namespace MV
variable {R : Type} [Field R] [DecidableEq R] (rt : Roots R) (fuel : Nat)

/-- `bivector_decompose_bisimple`, numga/multivector/extension/decompose.py:44-48. -/
def decomposeBisimple (b : MV R) : Except Fail (MV R × MV R) := do
  let b2 ← lift (b.squared A)
  let s ← (← lift (b2.studyConjugate A)).truediv A fuel (.mv (← lift ((← b2.studyNorm A rt).mul A (.num 2))))
  let l ← lift ((← lift (s.add A (.num (1 / 2)))).bivectorProduct A b)
  let r ← lift ((← lift (s.rsub A (.num (1 / 2)))).bivectorProduct A b)
  .ok (l, r)
/-- `decompose_invariant`, numga/multivector/extension/decompose.py:30-48. -/
def decomposeInvariant (b : MV R) : Except Fail (MV R × MV R) :=
  match Dispatch.matchLoop b.sub (invariantOptions A) with
  | none => .error .noMatch
  | some true => do .ok (b, MV.default (← lift A.empty))
  | some false => b.decomposeBisimple A rt fuel

/-- The last function `motor_translator`, numga/multivector/extension/decompose.py:57-61. -/
def translatorPart (m : MV R) : Option (MV R) := do
  (← call (Factory.euclidianFactorization A (.sub m.sub)) [m, m]).add A (.num 1)
/-- The method `motor_translator`, numga/multivector/extension/decompose.py:51-61. -/
def motorTranslator (m : MV R) : Except Fail (MV R) :=
  match Dispatch.matchLoop m.sub (motorPartOptions A) with
  | none => .error .noMatch
  | some true => do .ok (MV.default (← lift A.scalar))
  | some false => lift (m.translatorPart A)
/-- The method `motor_rotor`, numga/multivector/extension/decompose.py:64-72. -/
def motorRotor (m : MV R) : Except Fail (MV R) :=
  match Dispatch.matchLoop m.sub (motorPartOptions A) with
  | none => .error .noMatch
  | some true => .ok m
  | some false => lift (m.nondegenerate A)

/-- The last function `motor_split`, numga/multivector/extension/decompose.py:95-100. -/
def splitDefault (m o : MV R) : Except Fail (MV R × MV R) := do
  let t ← (← (← lift (m.sandwich A o)).truediv A fuel (.mv o)).motorSquareRoot A rt fuel
  .ok (t, ← lift ((← lift (t.reverse A)).mul A (.mv m)))
/-- `motor_split_blade`, numga/multivector/extension/decompose.py:86-94. -/
def splitBlade (m o : MV R) : Except Fail (MV R × MV R) := do
  let d ← lift (o.sub.complement A)
  let R ← lift (m.sub.reject A d)
  let T ← lift ((← lift A.vector).product A d)
  let (t, r) ← m.splitDefault A rt fuel o
  .ok (← lift (t.selectSubspace A T), ← lift (r.selectSubspace A R))
/-- `motor_split`, numga/multivector/extension/decompose.py:74-100. -/
def motorSplit (m o : MV R) : Except Fail (MV R × MV R) :=
  match Dispatch.matchLoop (m.sub, o.sub) (splitOptions A) with
  | none => .error .noMatch
  | some .euclidian => do .ok (← lift (m.translatorPart A), ← lift (m.nondegenerate A))
  | some .blade => m.splitBlade A rt fuel o
  | some .default => m.splitDefault A rt fuel o

end MV
end Verif.Model
