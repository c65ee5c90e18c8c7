import Verif.Model.Bitops
/-!
# Model of `numga/algebra/description.py`

Strings are lists of characters.
-/
namespace Verif.Model

/-- `str_to_sign`, numga/algebra/description.py:4.  `none`: the character is not a key. -/
def strToSign (c : Char) : Option Int :=
  if c = '+' then some 1 else if c = '0' then some 0 else if c = '-' then some (-1) else none

/-- `sign_to_str`, numga/algebra/description.py:5.  `none` is the `KeyError`. -/
def signToStr (s : Int) : Option Char :=
  if s = -1 then some '-' else if s = 0 then some '0' else if s = 1 then some '+' else none

/-- The generator `parse` inside `parse_description`, numga/algebra/description.py:25-31.  `cur` is the
(reversed) slice `d[last:i]` read so far.  `none` is the `AssertionError` for a string not ending in a sign. -/
def parseLoop : List Char → List Char → Option (List (List Char × Int))
  | cur, [] => if cur = [] then some [] else none
  | cur, c :: cs =>
    match strToSign c with
    | some s => (parseLoop [] cs).map ((cur.reverse, s) :: ·)
    | none => parseLoop (c :: cur) cs

/-- `AlgebraDescription`, numga/algebra/description.py:37-54: basis names and signature. -/
structure Description where
  names : List (List Char)
  sig : List Int
deriving DecidableEq, Repr

/-- `AlgebraDescription.from_str` / `parse_description`, numga/algebra/description.py:8-34, 56-65.
`none`: the assertion failed, or `zip(*...)` of nothing was unpacked (empty string). -/
def Description.fromStr (d : List Char) : Option Description :=
  match parseLoop [] d with
  | none => none
  | some [] => none
  | some (p :: ps) => some { names := (p :: ps).map (·.1), sig := (p :: ps).map (·.2) }

/-- `chars`, numga/util.py:3: the 26 lower-case letters. -/
def chars : List Char := "abcdefghijklmnopqrstuvwxyz".toList

/-- `AlgebraDescription.from_signature`, numga/algebra/description.py:78-87 (zip truncates). -/
def Description.fromSignature (sig : List Char) : Option Description :=
  Description.fromStr ((chars.zip sig).flatMap fun cs => [cs.1, cs.2])

/-- `AlgebraDescription.from_pqr`, numga/algebra/description.py:67-76.  Negative counts behave like 0 in
Python string repetition; the model takes naturals. -/
def Description.fromPqr (p q r : Nat) : Option Description :=
  Description.fromSignature (List.replicate p '+' ++ List.replicate q '-' ++ List.replicate r '0')

/-- `n_dimensions`, numga/algebra/description.py:89-92. -/
def Description.nDimensions (d : Description) : Nat := d.sig.length
/-- `n_blades`, numga/algebra/description.py:93-96. -/
def Description.nBlades (d : Description) : Nat := 2 ^ d.nDimensions
/-- `n_grades`, numga/algebra/description.py:97-100. -/
def Description.nGrades (d : Description) : Nat := d.nDimensions + 1

/-- `signature_str`, numga/algebra/description.py:108-110. -/
def Description.signatureStr (d : Description) : Option (List Char) := d.sig.mapM signToStr

/-- `description_str`, numga/algebra/description.py:102-104. -/
def Description.descriptionStr (d : Description) : Option (List Char) :=
  d.signatureStr.map fun ss => (d.names.zip ss).flatMap fun p => p.1 ++ [p.2]

/-- `zeros`, numga/algebra/description.py:129-132. -/
def Description.zeros (d : Description) : List Nat := d.sig.map fun s => if s = 0 then 1 else 0
/-- `negatives`, numga/algebra/description.py:133-136. -/
def Description.negatives (d : Description) : List Nat := d.sig.map fun s => if s = -1 then 1 else 0
/-- `positives`, numga/algebra/description.py:137-140. -/
def Description.positives (d : Description) : List Nat := d.sig.map fun s => if s = 1 then 1 else 0

/-- `pqr`, numga/algebra/description.py:111-113. -/
def Description.pqr (d : Description) : Nat × Nat × Nat :=
  (d.positives.sum, d.negatives.sum, d.zeros.sum)

/-- The generator inside `parse_tokens`, numga/algebra/description.py:117-126.  `cur` is `blade_name[last:i]`
(reversed).  `none` is the exception for an unrecognised rest. -/
def parseTokensLoop (names : List (List Char)) : List Char → List Char → Option (List Nat)
  | cur, [] => if cur = [] then some [] else none
  | cur, c :: cs =>
    let substr := (c :: cur).reverse
    if substr ∈ names then (parseTokensLoop names [] cs).map (names.idxOf substr :: ·)
    else parseTokensLoop names (c :: cur) cs

/-- `parse_tokens`, numga/algebra/description.py:115-127. -/
def Description.parseTokens (d : Description) (s : List Char) : Option (List Nat) :=
  parseTokensLoop d.names [] s

/-- `__mul__`, numga/algebra/description.py:146-149.  `none`: a shared basis name, or a failing
`description_str`/`from_str`. -/
def Description.mul (d e : Description) : Option Description :=
  if d.names.any (e.names.contains ·) then none
  else do
    let s ← d.descriptionStr
    let t ← e.descriptionStr
    Description.fromStr (s ++ t)

end Verif.Model
