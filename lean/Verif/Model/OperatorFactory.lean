import Verif.Model.Operator
import Mathlib.LinearAlgebra.Matrix.Adjugate
/-!
# Model of `numga/operator/factory.py`

The `@cache` decorators are not modelled: all functions are deterministic functions of their arguments, and
operators are never mutated.  Every function takes subspaces or operators (`Arg`) where the code does, and only
subspaces where the code calls a method that operators do not have.  `none` results are Python exceptions.
-/
namespace Verif.Model.Factory
variable (A : Alg)

/-- `negatives`, numga/operator/factory.py:61-64. -/
def negatives (v : Arg Int) : List Int := v.subspace.blades.map fun b => parityToSign (A.bitDot b A.negatives)

/-- `np.diag(weights)`, numga/operator/factory.py:73. -/
def diagKernel (w : List Int) : Tensor Int :=
  { shape := [w.length, w.length], get := fun idx => if idx.getD 0 0 = idx.getD 1 0 then w.getD (idx.getD 0 0) 0 else 0 }

/-- `diagonal`, numga/operator/factory.py:71-74. -/
def diagonal (v : Arg Int) (w : List Int) : Option (Operator Int) :=
  Operator.build (diagKernel w) [v, .sub v.subspace]

/-- `identity`, numga/operator/factory.py:66-70; operators have no `len`, so only for subspaces. -/
def identity (S : SubSpace) : Option (Operator Int) :=
  Operator.build (diagKernel (S.blades.map fun _ => 1)) [.sub S, .sub S]

/-- `_complement`, numga/operator/factory.py:75-78, for the blades and signs that the given functions assign to the
blades of `v`; the sparse kernel is made dense by `Operator.__init__`, numga/operator/operator.py:18-19. -/
def complement_ (v : Arg Int) (blades : Nat → Nat) (signs : Nat → Int) : Option (Operator Int) := do
  let S := v.subspace
  let c ← S.complement A
  let t := fromCayley A [S] (fun idx => blades (S.blades.getD (idx.getD 0 0) 0)) (fun idx => signs (S.blades.getD (idx.getD 0 0) 0))
  let k ← t.toDense [S, c]
  Operator.build k [v, .sub c]

/-- `select`, numga/operator/factory.py:80-89.  Only `.subspace` of the arguments is used: an operator passed as `i` is
dropped. -/
def select (i : Arg Int) (o : SubSpace) : Option (Operator Int) := do
  let k ← selectKernel A i.subspace o
  Operator.build k [.sub i.subspace, .sub o]

/-- `restrict`, numga/operator/factory.py:90-93; `o.intersection(i)` needs `i.blades`, which only subspaces have. -/
def restrict (i o : SubSpace) : Option (Operator Int) := do
  select A (.sub i) (← o.intersection A i)

/-- `scalar_negation`, numga/operator/factory.py:99-102. -/
def scalarNegation (v : Arg Int) : Option (Operator Int) :=
  diagonal v ((v.subspace.grades A).map fun g => parityToSign (if g > 0 then 1 else 0))
/-- `pseudoscalar_negation`, numga/operator/factory.py:103-112. -/
def pseudoscalarNegation (v : Arg Int) : Option (Operator Int) :=
  diagonal v ((v.subspace.grades A).map fun g => - parityToSign (if g = 0 ∨ g = A.n then 1 else 0))
/-- `reverse`, numga/operator/factory.py:115-120. -/
def reverse (v : Arg Int) : Option (Operator Int) :=
  diagonal v (v.subspace.blades.map fun b => parityToSign ((A.grade b / 2 : Nat) : Int))
/-- `involute`, numga/operator/factory.py:122-126. -/
def involute (v : Arg Int) : Option (Operator Int) :=
  diagonal v (v.subspace.blades.map A.involuteSign)
/-- `conjugate`, numga/operator/factory.py:128-132. -/
def conjugate (v : Arg Int) : Option (Operator Int) := do involute A (.op (← reverse A v))

/-- Sign of the reordering in `v * w`: `parity_to_sign(swaps)`, numga/operator/factory.py:148,154,163,171. -/
def swapSign (a b : Nat) : Int := parityToSign (A.cayley a b).2
/-- One entry of `negatives`, numga/operator/factory.py:64. -/
def negSign (b : Nat) : Int := parityToSign (A.bitDot b A.negatives)

/-- `right_complement`, numga/operator/factory.py:143-149. -/
def rightComplement (v : Arg Int) : Option (Operator Int) := do
  let p := (← A.pseudoscalar).blades.headD 0
  complement_ A v (fun b => (A.cayley b p).1) (fun b => swapSign A b p * negSign A b)
/-- `left_complement`, numga/operator/factory.py:150-155. -/
def leftComplement (v : Arg Int) : Option (Operator Int) := do
  let p := (← A.pseudoscalar).blades.headD 0
  complement_ A v (fun b => (A.cayley p b).1) (fun b => swapSign A p b * negSign A b)
/-- `right_complement_dual`, numga/operator/factory.py:157-164. -/
def rightComplementDual (v : Arg Int) : Option (Operator Int) := do
  let p := (← A.pseudoscalar).blades.headD 0
  complement_ A v (fun b => (A.cayley p b).1) (fun b => swapSign A b (A.cayley p b).1)
/-- `left_complement_dual`, numga/operator/factory.py:165-172. -/
def leftComplementDual (v : Arg Int) : Option (Operator Int) := do
  let p := (← A.pseudoscalar).blades.headD 0
  complement_ A v (fun b => (A.cayley p b).1) (fun b => swapSign A (A.cayley p b).1 b)
/-- `left_hodge`, numga/operator/factory.py:174-180. -/
def leftHodge (v : Arg Int) : Option (Operator Int) := do
  leftComplementDual A (.op (← diagonal v (negatives A v)))
/-- `right_hodge` (also named `dual`), numga/operator/factory.py:181-187,204. -/
def rightHodge (v : Arg Int) : Option (Operator Int) := do
  rightComplementDual A (.op (← diagonal v (negatives A v)))

/-- A square kernel as a matrix. -/
def toMatrix (k : Tensor Int) (n : Nat) : Matrix (Fin n) (Fin n) Int := fun i j => k.get [i, j]

/-- `np.linalg.inv(kernel).astype(dtype)`, numga/operator/factory.py:192, in exact arithmetic: the inverse is
adjugate / determinant (singular or non-square matrices raise), the cast truncates towards zero. -/
def linalgInv (k : Tensor Int) : Option (Tensor Int) :=
  match k.shape with
  | [n, m] =>
    if n = m ∧ (toMatrix k n).det ≠ 0 then
      some { shape := [n, n]
             get := fun idx => if h : idx.getD 0 0 < n ∧ idx.getD 1 0 < n then
               Int.tdiv ((toMatrix k n).adjugate ⟨idx.getD 0 0, h.1⟩ ⟨idx.getD 1 0, h.2⟩) (toMatrix k n).det
               else 0 }
    else none
  | _ => none

/-- `unary_inverse`, numga/operator/factory.py:189-193. -/
def unaryInverse (op : Operator Int) : Option (Operator Int) :=
  if op.arity = 1 then do
    let k ← linalgInv op.kernel
    Operator.build k (op.axes.reverse.map Arg.sub)
  else none

/-- `right_hodge_inverse` (also named `dual_inverse`), numga/operator/factory.py:195-199,205. -/
def rightHodgeInverse (v : Arg Int) : Option (Operator Int) := do
  let c ← v.subspace.complement A
  (← unaryInverse (← rightHodge A (.sub c))).build_ [v]
/-- `left_hodge_inverse`, numga/operator/factory.py:200-202. -/
def leftHodgeInverse (v : Arg Int) : Option (Operator Int) := do
  let c ← v.subspace.complement A
  (← unaryInverse (← leftHodge A (.sub c))).build_ [v]

/-- `nondegenerate`, numga/operator/factory.py:208-211. -/
def nondegenerate (v : Arg Int) : Option (Operator Int) := do select A v (← v.subspace.nondegenerate A)
/-- `degenerate`, numga/operator/factory.py:212-215. -/
def degenerate (v : Arg Int) : Option (Operator Int) := do select A v (← v.subspace.degenerate A)

/-- The operator before grade selection in `make_product`, numga/operator/factory.py:225-228. -/
def rawProduct (l r : SubSpace) : Option (Operator Int) := do
  let o ← A.full
  let p := fun (idx : List Nat) => A.product (l.blades.getD (idx.getD 0 0) 0) (r.blades.getD (idx.getD 1 0) 0)
  let k ← (fromCayley A [l, r] (fun idx => (p idx).1) (fun idx => (p idx).2)).toDense [l, r, o]
  some ⟨k, [l, r, o]⟩

/-- `make_product`, numga/operator/factory.py:218-231; the formula is given the grades of the three axes. -/
def makeProduct (l r : Arg Int) (formula : Int → Int → Int → Bool) : Option (Operator Int) := do
  let raw ← rawProduct A l.subspace r.subspace
  let g ← raw.gradeSelection A fun gs => formula (gs.getD 0 0) (gs.getD 1 0) (gs.getD 2 0)
  (← g.build_ [l, r]).squeeze A

/-- `geometric_product`, numga/operator/factory.py:233-237. -/
def product (l r : Arg Int) : Option (Operator Int) := makeProduct A l r fun _ _ _ => true
/-- `wedge_product`, numga/operator/factory.py:240-244. -/
def wedge (l r : Arg Int) : Option (Operator Int) := makeProduct A l r fun l r o => decide (l + r = o)
/-- `inner_product`, numga/operator/factory.py:245-251. -/
def inner (l r : Arg Int) : Option (Operator Int) := makeProduct A l r fun l r o => decide (|l - r| = o)
/-- `scalar_product`, numga/operator/factory.py:252-256. -/
def scalarProduct (l r : Arg Int) : Option (Operator Int) := makeProduct A l r fun _ _ o => decide (0 = o)
/-- `n_product`, numga/operator/factory.py:264-269. -/
def nProduct (l r : Arg Int) (o : SubSpace) : Option (Operator Int) := do
  let gp ← product A l r
  (← restrict A gp.output o).bind [(0, gp)]
/-- `bivector_product`, numga/operator/factory.py:258-263. -/
def bivectorProduct (l r : Arg Int) : Option (Operator Int) := do nProduct A l r (← A.bivector)
/-- `left_contraction_product`, numga/operator/factory.py:272-277. -/
def leftContraction (l r : Arg Int) : Option (Operator Int) := makeProduct A l r fun l r o => decide (r - l = o)
/-- `right_contraction_product`, numga/operator/factory.py:278-282. -/
def rightContraction (l r : Arg Int) : Option (Operator Int) := makeProduct A l r fun l r o => decide (l - r = o)

/-- `antify`, numga/operator/factory.py:302-304, for binary operators. -/
def antify (op : Arg Int → Arg Int → Option (Operator Int)) (l r : Arg Int) : Option (Operator Int) := do
  let cl ← rightComplement A l
  let cr ← rightComplement A r
  (← leftComplement A (.op (← op (.op cl) (.op cr)))).squeeze A

/-- `anti_geometric_product`, numga/operator/factory.py:308-313. -/
def antiProduct (l r : Arg Int) : Option (Operator Int) := antify A (product A) l r
/-- `anti_wedge_product`, numga/operator/factory.py:314-322. -/
def antiWedge (l r : Arg Int) : Option (Operator Int) := antify A (wedge A) l r
/-- `anti_inner_product`, numga/operator/factory.py:324-328. -/
def antiInner (l r : Arg Int) : Option (Operator Int) := antify A (inner A) l r
/-- `anti_scalar_product`, numga/operator/factory.py:330-334. -/
def antiScalar (l r : Arg Int) : Option (Operator Int) := antify A (scalarProduct A) l r
/-- `left_interior_product`, numga/operator/factory.py:286-290. -/
def leftInterior (l r : Arg Int) : Option (Operator Int) := do
  (← antiWedge A (.op (← leftComplement A l)) r).squeeze A
/-- `right_interior_product`, numga/operator/factory.py:291-295. -/
def rightInterior (l r : Arg Int) : Option (Operator Int) := do
  (← antiWedge A l (.op (← rightComplement A r))).squeeze A
/-- `anti_left_interior_product`, numga/operator/factory.py:336-340. -/
def antiLeftInterior (l r : Arg Int) : Option (Operator Int) := antify A (leftInterior A) l r
/-- `anti_right_interior_product`, numga/operator/factory.py:342-346. -/
def antiRightInterior (l r : Arg Int) : Option (Operator Int) := antify A (rightInterior A) l r

/-- `regressive_product`, numga/operator/factory.py:348-357. -/
def regressive (l r : Arg Int) : Option (Operator Int) := do
  let dl ← rightHodge A l
  let dr ← rightHodge A r
  (← rightHodgeInverse A (.op (← wedge A (.op dl) (.op dr)))).squeeze A

/-- `make_commutator`, numga/operator/factory.py:374-377. -/
def makeCommutator (op : Arg Int → Arg Int → Option (Operator Int)) (sign : Int) (l r : Arg Int) :
    Option (Operator Int) := do
  let a ← op l r
  let b ← ((← op r l).mul sign).swapaxes 0 1
  ((← a.add b).div 2).squeeze A
/-- `commutator_product`, numga/operator/factory.py:378-381. -/
def commutator (l r : Arg Int) : Option (Operator Int) := makeCommutator A (product A) (-1) l r
/-- `anti_commutator_product`, numga/operator/factory.py:382-385. -/
def antiCommutator (l r : Arg Int) : Option (Operator Int) := makeCommutator A (product A) 1 l r
/-- `commutator_anti_product`, numga/operator/factory.py:387-390. -/
def commutatorAnti (l r : Arg Int) : Option (Operator Int) := makeCommutator A (antiProduct A) (-1) l r
/-- `anti_commutator_anti_product`, numga/operator/factory.py:391-394. -/
def antiCommutatorAnti (l r : Arg Int) : Option (Operator Int) := makeCommutator A (antiProduct A) 1 l r

/-- `cross_product`, numga/operator/factory.py:396-400. -/
def cross (l r : Arg Int) : Option (Operator Int) := do (← rightHodge A (.op (← wedge A l r))).squeeze A

/-- `reverse_product`, numga/operator/factory.py:402-405. -/
def reverseProduct (l r : Arg Int) : Option (Operator Int) := do product A l (.op (← reverse A r))
/-- `involute_product`, numga/operator/factory.py:406-409. -/
def involuteProduct (l r : Arg Int) : Option (Operator Int) := do product A l (.op (← involute A r))
/-- `conjugate_product`, numga/operator/factory.py:410-413. -/
def conjugateProduct (l r : Arg Int) : Option (Operator Int) := do product A l (.op (← conjugate A r))
/-- `scalar_negation_product`, numga/operator/factory.py:414-417. -/
def scalarNegationProduct (l r : Arg Int) : Option (Operator Int) := do product A l (.op (← scalarNegation A r))
/-- `pseudoscalar_negation_product`, numga/operator/factory.py:418-421. -/
def pseudoscalarNegationProduct (l r : Arg Int) : Option (Operator Int) := do
  product A l (.op (← pseudoscalarNegation A r))
/-- `study_conjugate`, numga/operator/factory.py:475-479; `grades()` only exists on subspaces. -/
def studyConjugate (S : SubSpace) : Option (Operator Int) :=
  diagonal (.sub S) ((S.grades A).map fun g => parityToSign (if g > 0 then 1 else 0))
/-- `study_conjugate_product`, numga/operator/factory.py:423-426. -/
def studyConjugateProduct (l : Arg Int) (r : SubSpace) : Option (Operator Int) := do
  product A l (.op (← studyConjugate A r))
/-- `anti_reverse_product`, numga/operator/factory.py:427-430. -/
def antiReverseProduct (l r : Arg Int) : Option (Operator Int) := antify A (reverseProduct A) l r

/-- `symmetric_reverse_product`, numga/operator/factory.py:432-435. -/
def symmetricReverse (x : Arg Int) : Option (Operator Int) := do (← reverseProduct A x x).symmetry A [0, 1]
/-- `symmetric_involute_product`, numga/operator/factory.py:436-439. -/
def symmetricInvolute (x : Arg Int) : Option (Operator Int) := do (← involuteProduct A x x).symmetry A [0, 1]
/-- `symmetric_conjugate_product`, numga/operator/factory.py:440-443. -/
def symmetricConjugate (x : Arg Int) : Option (Operator Int) := do (← conjugateProduct A x x).symmetry A [0, 1]
/-- `symmetric_study_conjugate_product`, numga/operator/factory.py:444-447. -/
def symmetricStudyConjugate (x : SubSpace) : Option (Operator Int) := do
  (← studyConjugateProduct A (.sub x) x).symmetry A [0, 1]
/-- `symmetric_scalar_negation_product`, numga/operator/factory.py:448-450. -/
def symmetricScalarNegation (x : Arg Int) : Option (Operator Int) := do
  (← scalarNegationProduct A x x).symmetry A [0, 1]
/-- `symmetric_pseudoscalar_negation_product`, numga/operator/factory.py:451-453. -/
def symmetricPseudoscalarNegation (x : Arg Int) : Option (Operator Int) := do
  (← pseudoscalarNegationProduct A x x).symmetry A [0, 1]
/-- `squared`, numga/operator/factory.py:455-458. -/
def squared (v : Arg Int) : Option (Operator Int) := do (← product A v v).symmetry A [0, 1]
/-- `cubed`, numga/operator/factory.py:459-462. -/
def cubed (v : Arg Int) : Option (Operator Int) := do
  (← product A (.op (← squared A v)) v).symmetry A [0, 1, 2]
/-- `study_norm_squared`, numga/operator/factory.py:480-482. -/
def studyNormSquared (S : SubSpace) : Option (Operator Int) := do
  scalarProduct A (.sub S) (.op (← studyConjugate A S))

/-- `full_sandwich`, numga/operator/factory.py:495-507. -/
def fullSandwich (R v : Arg Int) : Option (Operator Int) := do
  (← product A (.op (← product A R v)) (.op (← reverse A R))).symmetry A [0, 2]
/-- `sandwich`, numga/operator/factory.py:519-528; the formula takes four grades, so operators of another arity
raise. -/
def sandwich (R : Arg Int) (v : SubSpace) : Option (Operator Int) := do
  let s ← fullSandwich A R (.sub v)
  if s.axes.length = 4 then
    s.gradeSelection A fun gs => (v.grades A).any fun g => decide (gs.getD 3 0 = (g : Int))
  else none
/-- `reverse_sandwich`, numga/operator/factory.py:530-533; `R.reverse()` is the operator, by
numga/subspace/subspace.py:408-426. -/
def reverseSandwich (R v : SubSpace) : Option (Operator Int) := do
  sandwich A (.op (← reverse A (.sub R))) v

/-- `S.kernel * sign_mask[None, :, None]`, numga/operator/factory.py:544, for a kernel with four axes: numpy aligns
the mask with the *last* three axes. -/
def broadcastMask (k : Tensor Int) (mask : List Int) : Option (Tensor Int) :=
  match k.shape with
  | [a, b, c, d] =>
    if mask.length = c ∨ mask.length = 1 then
      some { shape := [a, b, c, d]
             get := fun idx => k.get idx * mask.getD (if mask.length = 1 then 0 else idx.getD 2 0) 0 }
    else if c = 1 then
      some { shape := [a, b, mask.length, d], get := fun idx => k.get (idx.set 2 0) * mask.getD (idx.getD 2 0) 0 }
    else none
  | _ => none

/-- `transform`, numga/operator/factory.py:535-544.  The result keeps the axes of the sandwich operator. -/
def transform (R v : SubSpace) : Option (Operator Int) := do
  let parity ← pyMatch ((R.grades A).map (· % 2))
  let S ← sandwich A (.sub R) v
  let k ← broadcastMask S.kernel ((v.grades A).map fun g => parityToSign ((g * parity : Nat) : Int))
  some ⟨k, S.axes⟩

/-- `inverse_factor`, numga/operator/factory.py:553-563. -/
def inverseFactor (x : Arg Int) : Option (Operator Int) := do
  let p ← symmetricReverse A x
  (← product A (.op (← reverse A x)) (.op (← conjugate A (.op p)))).symmetry A [0, 1, 2]
/-- `inverse_factor_completed`, numga/operator/factory.py:565-571. -/
def inverseFactorCompleted (x : Arg Int) : Option (Operator Int) := do
  let p ← symmetricReverse A x
  (← product A (.op p) (.op (← conjugate A (.op p)))).symmetry A [0, 1, 2, 3]
/-- `inverse_factor_alt`, numga/operator/factory.py:573-579. -/
def inverseFactorAlt (x : Arg Int) : Option (Operator Int) := do
  let p ← symmetricReverse A x
  (← product A (.op (← reverse A x)) (.op (← scalarNegation A (.op p)))).symmetry A [0, 1, 2]
/-- `inverse_factor_completed_alt`, numga/operator/factory.py:581-587. -/
def inverseFactorCompletedAlt (x : Arg Int) : Option (Operator Int) := do
  let p ← symmetricReverse A x
  (← product A (.op p) (.op (← scalarNegation A (.op p)))).symmetry A [0, 1, 2, 3]
/-- `compose_symmetry_ops`, numga/operator/factory.py:589-593. -/
def composeSymmetryOps (x : Arg Int) (op1 op2 : Arg Int → Option (Operator Int)) : Option (Operator Int) := do
  let p ← (← product A x (.op (← op1 x))).symmetry A [0, 1]
  (← product A (.op (← op1 x)) (.op (← op2 (.op p)))).symmetry A [0, 1, 2]
/-- `complete_op`, numga/operator/factory.py:594-596. -/
def completeOp (x : Arg Int) (op : Arg Int) : Option (Operator Int) := do
  let c ← product A x op
  c.symmetry A (List.range c.arity)

/-- `inertia`, numga/operator/factory.py:599-602. -/
def inertia (l r : Arg Int) : Option (Operator Int) := do
  (← regressive A l (.op (← commutator A l r))).symmetry A [0, 1]

/-- `euclidian_factorization`, numga/operator/factory.py:627-633. -/
def euclidianFactorization (m : Arg Int) : Option (Operator Int) := do
  let op ← product A m (.op (← rightHodge A m))
  (← (← rightHodge A (.op op)).selectGrade A 2).symmetry A [0, 1]

/-- One round of `solve`, numga/operator/factory.py:609-614 and 619-623: the part of the full space that can
contribute to `target`. -/
def solveRound (x mv target : SubSpace) : Option SubSpace := do
  let op ← (← (← product A (.sub x) (.sub mv)).selectSubspace A target).squeeze A
  let mask := (List.range mv.blades.length).filter fun j =>
    (allIdx op.kernel.shape).any fun i => i.getD 1 0 == j && decide (op.kernel.get i ≠ 0)
  mv.slice A mask
/-- `solve`, numga/operator/factory.py:604-625. -/
def solve (x rhs : SubSpace) : Option (Operator Int) := do
  let mv ← A.full
  let y ← solveRound A x mv rhs
  let foo ← product A (.sub x) (.sub y)
  let y ← solveRound A x mv foo.output
  product A (.sub x) (.sub y)

end Verif.Model.Factory
