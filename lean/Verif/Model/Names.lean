import Verif.Model.SubspaceOps
/-! # Model of the textual forms of a subspace, numga/subspace/subspace.py:73-123 -/
namespace Verif.Model

/-- One entry of `named_str`, numga/subspace/subspace.py:78-82: `np.char.multiply('1', (blades == 0) * 1)`, followed by every basis
name, repeated as often as its bit says. -/
def Alg.bladeName (A : Alg) (b : Nat) : List Char :=
  (if b = 0 then ['1'] else []) ++ (A.desc.names.zip (biterator b A.n)).flatMap fun p => (List.replicate p.2 p.1).flatten

/-- `named_str`, numga/subspace/subspace.py:73-83. -/
def SubSpace.namedStr (A : Alg) (S : SubSpace) : List Char :=
  if S.blades.length = 0 then [] else [','].intercalate (S.blades.map A.bladeName)

/-- The list `matches`, numga/subspace/subspace.py:89-112. -/
def prettyLabels : List String :=
  ["empty", "scalar", "pseudoscalar", "vector", "bivector", "antivector", "antibivector", "trivector", "antitrivector", "quadvector",
   "antiquadvector", "scalar_pseudoscalar", "study", "even_grade", "odd_grade", "reflection", "bireflection", "trireflection",
   "quadreflection", "self_reverse", "nonscalar", "multivector"]

/-- `getattr(s, m)()` in `pretty_str`, numga/subspace/subspace.py:115,121, with the constructors of numga/subspace/factory.py:103-173.
`none` is an exception, which `pretty_str` swallows.  There is no constructor `study` (it is commented out,
numga/subspace/factory.py:176-180): `__getattr__` then either raises, or returns a subspace, which cannot be called. -/
def Alg.byName (A : Alg) (m : String) : Option SubSpace :=
  if m = "empty" then A.empty
  else if m = "scalar" then A.scalar
  else if m = "pseudoscalar" then A.pseudoscalar
  else if m = "vector" then A.vector
  else if m = "bivector" then A.bivector
  else if m = "antivector" then A.antivector
  else if m = "antibivector" then A.antibivector
  else if m = "trivector" then A.trivector
  else if m = "antitrivector" then A.kVector (-4)
  else if m = "quadvector" then A.quadvector
  else if m = "antiquadvector" then A.kVector (-5)
  else if m = "scalar_pseudoscalar" then A.scalarPseudoscalar
  else if m = "even_grade" then A.evenGrade
  else if m = "odd_grade" then A.oddGrade
  else if m = "reflection" then A.kReflection 1
  else if m = "bireflection" then A.kReflection 2
  else if m = "trireflection" then A.kReflection 3
  else if m = "quadreflection" then A.kReflection 4
  else if m = "self_reverse" then A.selfReverse
  else if m = "nonscalar" then A.nonscalar
  else if m = "multivector" then A.full
  else none

/-- `pretty_str`, numga/subspace/subspace.py:84-123.  `none`: the function ends without a `return`. -/
def SubSpace.prettyStr (A : Alg) (S : SubSpace) : Option String :=
  match prettyLabels.find? fun m => (A.byName m).any (S == ·) with
  | some m => some ("is_" ++ m)
  | none =>
    match prettyLabels.find? fun m => (A.byName m).any (·.contains S) with
    | some m => some ("in_" ++ m)
    | none => none

end Verif.Model
