import Verif.Model.Multivector
/-!
# Model of `numga/multivector/factory.py`

The caches (`@cache`) are not modelled: the methods have no side effects.
-/
namespace Verif.Model.MVFactory
variable {R : Type} [CommRing R] (A : Alg)

/-- `multivector` and `__call__`, numga/multivector/factory.py:24-25,81-89; `none` for an argument that is not given. -/
def multivector (values : Option (List R)) (subspace : Option SubSpace) : Option (MV R) := do
  let S ← match subspace with
    | some S => some S
    | none => A.full
  match values with
  | some v => MV.construct v S
  | none => some (MV.default S)

/-- `SubSpaceFactory.basis`, numga/subspace/factory.py:70-74. -/
def basisSpaces : Option (List SubSpace) := do (← A.vector).blades.mapM A.bladeSpace

/-- `basis`, numga/multivector/factory.py:38-43. -/
def basis : Option (List (MV R)) := do (← basisSpaces A).mapM fun b => multivector A (some [1]) (some b)

/-- `__getattr__`, numga/multivector/factory.py:27-36.  `none`: the name cannot be parsed, or `reduce` of nothing. -/
def getattr (name : List Char) : Option (MV R) := do
  let bs : List (MV R) ← basis A
  let els ← (← A.desc.parseTokens name).mapM (bs[·]?)
  match els with
  | [] => none
  | e :: es => es.foldlM (fun x y => x.wedge A y) e

/-- `blade`, numga/multivector/factory.py:45-50. -/
def blade (b : Nat) (s : R) : Option (MV R) := do MV.construct [s] (← A.bladeSpace b)

/-- `k_vector`, numga/multivector/factory.py:71-72 (and with a fixed `k`, `scalar` .. `antitrivector`, lines 54-69). -/
def kVector (k : Int) (values : Option (List R)) : Option (MV R) := do multivector A values (some (← A.kVector k))

/-- `even_grade`, `rotor` and `motor`, numga/multivector/factory.py:74-79. -/
def evenGrade (values : Option (List R)) : Option (MV R) := do multivector A values (some (← A.evenGrade))

end Verif.Model.MVFactory
