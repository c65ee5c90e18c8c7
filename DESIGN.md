# numga: formal model and proofs

Source: `/repo` (EelcoHoogendoorn/numga, pinned commit), read as text, never executed or changed.
Prover: Lean 4.33.0 with Mathlib, project in `/verif/lean`, built with `lake build`.

## 1. Layout

* `properties.jsonl`     the properties, in terms of the API and its observable effects.
* `MANIFEST.json`        property -> status, theorem names.
* `lean/Verif/Model/*`   executable model, one definition per function of the code, each citing file and lines in `/repo`.
* `lean/Verif/Spec/*`    small independent specification; it uses Mathlib objects and never the functions of the model
  it specifies.
* `lean/Verif/Proofs/*`  helper lemmas.
* `lean/Verif/Props/*`   the property theorems, `C<nn>_<name>` in namespace `Verif.Props`.  Beside them `example`s show a
  concrete, non-trivial case that meets the hypotheses.
* `seeded/LOG.jsonl`     the log of deliberately wrong models and of the theorems that reject them.

## 2. What the specification is

* **Algebra.** For an algebra of dimension `n` with signs `sig`, the reference object is Mathlib's
  `CliffordAlgebra (QuadraticMap.weightedSumSquares R sig)` over an arbitrary commutative ring (`Spec/Clifford.lean`).
  The blade numbered `b` denotes the product of `ι e_i` over the set bits of `b` in increasing order.  The blades are
  proved to be linearly independent over every nontrivial ring (`coef_blade`), so an equation in the Clifford algebra
  determines all coefficients.
* **Multivectors.** `denote x` is the sum of coefficient times blade (`Spec/Multivector.lean`).  `Gives r y` says: the call
  returns (does not raise), the result is well formed (its subspace is canonical, one value per blade), and it denotes `y`.
* **Wedge** is specified with Mathlib's `ExteriorAlgebra`; reversal and involution with Mathlib's
  `CliffordAlgebra.reverse`/`involute`; duals, complements and anti-products by their values on blades and by their laws.
* **Subspaces** are specified as sets of blades (`Spec/Subspace.lean`); grade is Mathlib's/`Nat.bits` population count.
* **Operators** are specified by the multilinear map they compute (`contract`, `LinMap`), never by their kernels, except where
  the property is about kernels (C23, C27).
* **Roots.** `RootLaw`/`RealRoots` state what is assumed of `sqrt` (`Spec/Roots.lean`): the only facts used are those of a
  principal square root on an ordered field; `Real.sqrt` is shown to satisfy them.
* **State machines** (flyweight pool, dispatch cache, operator cache, array heap) are specified by histories of events.

## 3. Modelling decisions

1. **Bits.** Blades are natural numbers below `2^width`, truncated where numpy truncates.  The swap counter is an 8-bit
   counter and then a signed 8-bit number, as in numpy.  The population count goes through the 256-entry table.
2. **Arrays.** A kernel is a tensor of any rank: a shape and an entry function.  tensordot, moveaxis, transpose, swapaxes,
   take, einsum, reshape and broadcasting multiplication follow numpy's documented index semantics, including the shape
   conditions under which numpy raises.
3. **Coefficients** are elements of an arbitrary commutative ring, of a field where the code divides.  Floating-point rounding is
   not modelled.  Division by zero and roots of negative numbers are explicit failures (`Fail.divZero`, `Fail.nan`), never
   the total functions of Mathlib: a theorem that says "returns" cannot hold because `1/0 = 0`.
4. **Batches.** Leading (broadcast) axes are not part of arrays in most of the model; C62 shows that this loses nothing: taking for
   the ring of coefficients a ring of functions computes every batch entry separately. `Model/Batch.lean` has the axes explicitly, and
   C86 shows that calls of operators on such arrays are calls on their entries.
5. **Errors.** Python exceptions are `none`/`Except.error`; conditions in dispatch tables may raise, too.
6. **Loops with unknown length** (`minimal_subalgebra`, recursive `inverse`) carry a fuel parameter; theorems show that any
   sufficiently large fuel gives the same answer.
7. **`int8`.** Kernels are modelled with exact integers; C27 proves that all entries are -1, 0 or 1, and that the same computation in
   8-bit vectors gives the same kernels.

## 4. Results per property

| id | theorems (`Verif.Props.`) | how it is proved |
|----|---------------------------|------------------|
| C01 | `C01_bit_count`, `C01_grade`, `C01_bit_dot` | table checked for all 256 bytes by the kernel, induction over bytes |
| C02 | `C02_product_is_clifford`, `C02_sign_unique`, `C02_zero_iff` | shift loop = number of inversions; Clifford relations by induction over generators; uniqueness from independence of blades |
| C03 | `C03_associative`, `C03_unit` | from C02 and independence of blades |
| C04 | `C04_values`, `C04_involutive`, `C04_products`, `C04_reverse_sign`, `C04_involute_sign` | induction over generators, transported through `denote` |
| C05 | `C05_pseudoscalar_squared` | C02 and counting |
| C06 | `C06_accepts`, `C06_parsed`, `C06_round_trip` | induction over the string |
| C07 | `C07_from_pqr`, `C07_truncates` | list lemmas; more than 26 dimensions are proved to be cut off |
| C08 | `C08_constructible`, `C08_dtype` | case split on the number of bytes |
| C09 | `C09_mul`, `C09_products` | masks of the appended signature, swap count of shifted blades |
| C10 | `C10_parse_tokens`, `C10_parse_sound` | induction over the token sequence |
| C11 | `C11_identity`, `C11_stable` | invariant of the pool, all histories |
| C12 | `C12_from_blades` | sortedness and permutation of the stable sort |
| C13-C16, C18, C19 | `C13_set_algebra` .. `C19_repeated_letter` | membership and bit lemmas; repeated letters in `xx` are a proved surprise |
| C17 | `C17_split`, `C17_multivector` | masks and C02 |
| C20, C60 | `C20_*`, `C60_*` | monotone growth inside a finite space, induction over rounds |
| C21-C26 | `C21_fuse` .. `C26_deslice_raises` | contraction lemmas by induction over the rank |
| C27 | `C27_kernel`, `C27_transform`, `C27_store`, `C27_fuse8`, `C27_symmetry8`, `C27_add8`, `C27_squeeze8` | inductive predicate `Built` closed under all factory functions and operator methods; xor-homogeneity of kernels |
| C28-C38 | `C28_product` .. `C38_grades` | evaluation lemma of `make_product`, C02, C21-C24, then algebra in the Clifford/exterior algebra |
| C39 | `C39_*` | exact output spaces of the symmetric products |
| C40-C43 | `C40_*` .. `C43_multilinear` | sums over index tuples; all execution strategies equal the contraction |
| C44-C46 | `C44_*` .. `C46_*` | denotation lemmas |
| C47-C49 | `C47_*` .. `C49_*` | two-sided inverses from commuting norms; recursion on simplicity; completeness (fails only for non-invertible elements) in dimension at most 4 |
| C50, C51, C63 | `C50_*`, `C51_*`, `C63_*` | study-number algebra with an abstract principal root; sharpness shown by the nan and silent cases |
| C52, C53 | `C52_*`, `C53_*` | Cayley algebra, induction over the number of bisections; proved failures |
| C54-C56 | `C54_*` .. `C56_*` | invariants of state machines, all histories |
| C57, C61 | `C57_*`, `C61_*` | parity and null-vector counting in output spaces |
| C58 | `C58_transform_partial`, `C58_even_partial`, `C58_raises`, `C58_outermorphism`, `C58_wrong` | true where the mask meets the right axis; elsewhere the code is proved to raise or to be wrong |
| C59 | `C59_inverse`, `C59_complete`, `C59_dim0` | the loop is Faddeev-LeVerrier without the matrix; proved in a matrix representation over an algebraically closed field, carried to every ring as polynomial identities in signature and coefficients; the final scalar is multiplicative, hence nonzero on units |
| C62 | `C62_natural`, `C62_batch` | naturality of every operator in the ring of coefficients |
| C64-C66 | `C64_*`, `C65_*`, `C66_*` | composition of operator semantics; complement maps of the exterior algebra; Mathlib's `crossProduct` as specification |
| C67-C69 | `C67_*`, `C68_*`, `C69_*` | `norm` through the square root theorems; sizes of the constructor subspaces by counting blades with Mathlib's binomials; grade projections of the Clifford algebra |
| C70 | `C70_*` | blades of graded products (`gradedProduct_blade`), so membership is a statement about bit sets |
| C71 | `C71_*` | linearity of `contract` in the kernel; the axis sum by inserting the all-ones vector |
| C72 | `C72_*` | `LeastOp`: computes on the diagonal, and the output is the least space; from `symmetry_needed` (a symmetric integer form that vanishes is zero) |
| C73 | `C73_*` | selection as projection; the two rounds of `solve` as a closed description of `Y`; witness that `Y` can be too small |
| C74 | `C74_*` | algebra of the study number `b * b`; the condition on the root taken from `bisimple_spec` |
| C75 | `C75_*` | elements without the null vector form a subalgebra (`freeOf`), past which the null vector moves with the grade involution |
| C76 | `C76_*`, `keepsGrade` | `o` squares to a number and reflects `g = (m >> o) / o` to its reverse, hence also the normalised root of `g`; counting of vectors shows the selections lose nothing |
| C77 | `C77_*` | each label's constructor against the set of blades it names (`LabelSet`); unique decoding of prefix-free names |
| C78 | `C78_*` | multiplication table of the even subalgebra (`Pga3d`), the root of the study number `x ~x` is the one with positive scalar part |
| C79 | `C79_*` | `Spec/Exp.lean` defines the exponential by its differential equation; uniqueness by Picard–Lindelöf; the closed forms differentiated; bounds of `sin` near zero |
| C80 | `C80_*` | normal equations of the matrix of left multiplication; in dimension at most four `~x (2 (x ~x)₀ - x ~x)` lies in the candidate subspace, by polarisation and a table of signs of all triples of blades |
| C81 | `C81_*` | cases of the dispatch; `square_root` and `inverse` laws (C22, C53) composed, existence from the study norm |
| C82 | `C82_*` | the algebra is mapped into matrices (left multiplication) with the operator norm of the supremum; power series remainder, telescoping of `u^k - v^k`; the exponential is the solution of the linear differential equation |
| C83 | `C83_*` | all the intermediate rotors stay so close to one that each square root is the principal one; then the roots undo the squarings |
| C84 | `C84_*` | the kernel of the bound operator is the matrix of the symmetrised sandwich; `JᵀJ` invertible iff `J` injective; the iterates are polynomials in `s`, so the step is `(x + (x s)⁻¹)/2`; residual recursion in the operator norm of the left multiplication matrices |
| C85 | `C85_*` | the iterates stay in the quadratic algebra of `q`, where the residual map is that of Heron's method; positivity of real part and norm is invariant; a nonpositive norm stays nonpositive |
| C86 | `C86_*` | broadcasting of shapes is the join of the order `Repeats`; an einsum with ellipsis is the einsum of the entries; every intermediate array of the other calls holds, at each index of the result, the value computed from the entries read there |
| C87 | `C87_*` | the container is related to a matrix over the Clifford algebra by `IsMatrix`; grouping keeps sums over entries, `reduceat` over the starts of rows sums runs of a sorted list, pairs of entries regroup the double sum of a matrix product; any bilinear product (`Realises`) |
| C88 | `C88_*` | partial application (C42) for every entry; entries of kernels are products with basis blades |
| C89 | `C89_*` | induction on the branches of the inverse: every intermediate value is stored in the subalgebra |
| C90 | `C90_*` | vectors are the images of coordinate functions (`vec`), their inner products are `dot`; exact subspaces of wedge, inner and geometric product with the plane of `p`, `n` |
| C91 | `C91_*` | the square of the wedge of two null vectors is the square of their inner product; the norm is stored on grades 0 and 4 and is a number in at most four dimensions; negation in space by a computed case |
| C92 | `C92_*` | expansions in the step size up to order five with coefficients in the elementary differentials of the power series of the right hand side, for the stages of the method and for any solution; no solver is trusted |
| C93 | `C93_*` | bodies as the inductive closure of `from_point_cloud` and `copy` (`Made`); the regressive product as an associative graded map with its own sign law, the inertia form as a sum of squares, invariance of the pairing under commutators with a bivector; the inverse by the adjugate |
| C94 | `C94_*` | `motor_add_step` by the spec of the exponential (a normalised `1 - step/2`), the relative step by the linear logarithm; existence by real roots and nonnegative signature |
| C95 | `C95_*` | the commutator as half the ring commutator; graded products by the grade part of the product |
| C96 | `C96_*` | `distribute_forque` on bodies in `Made`: the compliance as the value of the inverse inertia form, momentum by invariance of grade n-2 under even unit motors for n < 6, existence by definiteness of the form |
| C97 | `C97_*` | `apply_indexed` and `v_apply_indexed` for three basis vectors on bodies in `Made`: the norm of the forque is a scalar there, so C96 applies; the subspaces of the intermediate operators from the invertibility of the inertia |
| C98 | `C98_*` | the same for four basis vectors: the join of two points and the difference of the velocities of a hinge are lines, a line times its reverse is a number, so the Study root in `forque.norm()` is one; the join is equivariant under unit motors (`Turns`) |
| C99 | `C99_*` | gathering rows by index and writing them back (`pyGet`, `setRows`); with different indices this is the relation `Applied` (every link changes its two bodies, the rest stays), which does not depend on the order; folds of `Applied` by induction; `Made` and unit motors as invariants of `integrate` |
| C100 | `C100_*` | values of force, energy and implicit equation in the Clifford algebra (`Forces`, `newmark_in`, `verlet_in`); the Cayley exponentials of `b` and `-b` are inverse to each other; the start satisfies the implicit equation of the step back |
| C101 | `C101_*`, `newmark_jacobian` | a step solves `J d = -f(x)` (`linalgSolve_some`); a regular Jacobian has one solution; the Newmark equation is expanded as a quadratic polynomial of the rate |
| C102 | `C102_*`, `pga_points`, `simplexMean_one` | quadratic polynomials are integrated over the standard simplex of any dimension by induction (`simplex_quad`, beta integrals); the weights have the same second moments; a row of mass `1/N` divided by the root of its norm is a point mass (`rescale_spec`); antivectors of a projective algebra have the square of one coefficient as norm (`antivector_norm`) |
| C103 | `C103_*` | even elements of `w0x+y+` by four coefficients (`ev_mul`); exact results from value and layout (`call_eq`), the layout of sandwiches from their grades (`sandwich_layout`); entries of the matrix from the bound operator on basis points; the exponential by its differential equation (`IsExp`) |
| C104 | `C104_*` | algebras with one null vector in last place (`Flat`), vectors `arm v` and translators `1 + v w / 2`; points by their dual; the inertia of the points at the corners of a cross-polytope is regular (`cube_regular`), so the inverse exists; the list of bodies and the links by position (`C99_chain`); fixing as a projection of the last index of the operator (`fix_spec`) |
| C105 | `C105_*` | the second moments of the corners of the box by flipping a sign (`corner_sum`); clouds with diagonal second moments have a diagonal inertia (`principal`, `inertia_diag`); bivectors as skew matrices, whose commutator is that of the elements (`spin_comm`); two conserved quadratic forms for stability, an explicit solution by hyperbolic functions for instability |
| C106 | `C106_*` | the line from a body's centre along an axis commutes with the translation along it, and gravity is a multiple of the momentum of that translation; so `rate_derivative` is a scalar function of a scalar on multiples of the translation, and so is the Runge-Kutta step; the motor by the uniqueness of the root in `exp` up to sign; induction over the steps |
| C107 | `C107_*` | the join of a point with itself is zero, so the impulse is zero and the root in `motor_add_step` is a sign; an invariant of the bodies in the middle of a step (`Mid`): moved by the common translation, up to a sign; its preservation by `apply` for the bodies that only satisfied constraints connect to falling ones (`mid_sets`, for the fixed chain one body less per set); then C97 and C98 for the velocity step; for the plane `Proofs/Turns3.lean` (turning keeps joins of points) |
| C108 | `C108_*` | the square of a vector is one number, the sum over the signature (`vector_squared`, from the least output space of `squared`); the sign of that sum for a vector and for its inverted coefficients; induction over the number of reflections with the invariant that the product is a sign (or zero) times vectors that square to one; products of such vectors are unitary and keep grades |

`_partial` theorems: only C58; the full statement is false for the code (`C58_wrong`, `C58_raises`).

## 5. Disagreements between code and expectation (findings)

Proved, with a witness in Lean:

* `transform` applies its sign to the wrong axis: wrong results or an exception (C58_wrong, C58_raises).
* `anti_product` is not associative in even dimensions (C34_even), and neither is `anti_wedge` (C65_even).
* `v|M + v^M` counts the scalar part of `M` twice (C31_inner_doubles).
* The pure-python backend starts its output from the default multivector, so an unwritten scalar output is 1 instead of 0
  (C41_disagree).
* Sparse execution with a missing argument silently ignores it (C40_missing_argument).
* A call with a subspace among multivectors ignores which subspace it is (C42_mixed); fully bound operators cannot be called.
* Basis names that are prefixes of others make named blades misparse (C46_prefix).
* A dispatcher that was called keeps using an implementation although a better one is registered later (C54_late).
* Operator types with equal `str` share cached operators (C55_collision).
* `np.asarray` aliases user arrays (C56_alias).
* `inverse_hitzer` silently returns wrong results in four dimensions (C48_dim4); its exact value is C48_value.
* `square_root` returns 0 silently where the root does not exist (C50_silent).
* `exp`: the condition of the default branch is a bound method that is never called, so `exp` of a vector returns 1
  (C53_vector); the degenerate branch is wrong for two or more null vectors (C53_two_null); `motor_log(-1+b)` returns `b`
  (C53_translator_negative).
* `from_pqr` silently cuts off at 26 dimensions (C07_truncates).  The attribute `xx` of the subspace factory is `y`
  (C19_repeated_letter).
* `solve` looks only two rounds far: in signature `+00` with `X = 1 + y + xz` its space for the unknown excludes the only solution
  of `X * Y = 1` (C73_small).
* `motor_translator` has the wrong sign if the number of basis vectors with negative square is odd (C75_odd, C75_wrong).
* `decompose_invariant` divides by zero for isoclinic bivectors, which do have decompositions (C74_returns, C74_isoclinic).
* The optimised `exp` of a bivector stored in all six blades divides by zero if its rotation part is zero, although the exponential
  exists (C79_bivector).
* `named_str` does not determine the blades for names that are not prefix-free (C77_ambiguous); the label `study` of `pretty_str` has no
  constructor, the exception is swallowed, so it is never used (modelled in `Alg.byName`).
* `inverse_la` returns a wrong result without raising for some invertible multivectors of five dimensions, e.g. the sum of the blades
  `w, y, wz, xz, vwx` of Euclidean space (C80_dim5).
* `numerical_normalize.normalize_motor` does not converge below six dimensions as its docstring says, if the square of the non-scalar
  part of `m ~m` is at least the square of the scalar part; e.g. `1 + 3/5 (ac + bd)` with signature `++--` (C85_stuck, C85_stuck_witness).
* Its assertion `sandwich.output == S` fails for all motors over some subspaces of six dimensions (C84_raises).
* `TorchDenseOperator` reshapes its inputs without their leading axes: it raises for every input that is not a single multivector, and
  drops leading axes of length one (C86_torch_dense, C86_torch_dense_axes).
* `x.sum(axis=-1)` sums components; the assertion of `construct` does not notice if the last axis is as long as the subspace
  (C86_sum_silent).
* `x.at[i].set(y)` does not compare the subspaces, values are reinterpreted or a single component repeated (C86_set_unchecked).
* `Builder.entries` of ga_sparse.py is a class attribute: entries added to one builder appear in the matrices of all later ones
  (C87_shared).  Products raise for rows without entries and for factors without matching entries (C87_empty).
* `BoundMatrixOperator.as_dense` transposes every block, so it disagrees with `as_operator` (C88_dense, C88_dense_wrong), and raises
  for non-square blocks.
* `split_points` of examples/conformal.py: the second element is minus the point, so its `point_position` is negated unless it is
  normalised first (C91_points); `ConformalContextMixin.split_points` returns the opposite order (C91_split); in the conformal algebra of
  space it raises when the bivector is stored with further blades, because the division then adds blades of grade 4 (C91_space_fails).
* `RK8` of examples/integrators.py is of order three: the coefficient of `k_1` in `k_8` is -234 (row sum 17/20) where the method it copies
  has -231 (row sum 1); C92_rk8_order shows that the error of a step is not O(h^5) even for y' = y.
* The comment in `kinetic_energy` (examples/physics/base.py:126-130) says a factor -1/2 is missing. `I(r) & r` is the sum of the squares of
  `p & r` (C93_energy), so it is not negative without negative basis vectors (C93_positive): the missing factor is +1/2.
* `Constraint.distribute_forque` (examples/physics/core.py:148-167) uses the connectivity `[+1/2, -1/2]` (base.py:149) for the impulses but not in
  the sum of the compliances, so even for compliance zero only half of the violation is corrected (C96_half). In `v_apply_indexed` the forque
  contains the half already and a quarter of the relative velocity is removed.
* The 1e-26 in `apply_indexed` and `v_apply_indexed` (core.py:104-146) protects only the first division. If the violation is exactly zero and the
  compliance is zero, as always in `v_apply_indexed`, `magnitude / total_compliance` is 0/0 (C96_total).
* `v_apply_indexed` (core.py:129-146) multiplies the compliance by zero, so it is 0/0 whenever the anchors have the same velocity in the world, for
  example for bodies at rest (C97_velocity_total and its example).
* With four basis vectors (3D PGA) `forque.norm()` in `apply_indexed` and `v_apply_indexed` is a Study number on the scalar and the pseudoscalar.
  Its pseudoscalar part is zero if the forque is a line, but the sum of the two lines in `v_apply_indexed` is a line only if they meet; else
  the multiplier is no scalar. The docstring's conservation of momentum is proved for the plane (C97), and in space for all positions and for the
  velocities of anchors that coincide in the world (C98).
* C99: `ConstraintBase.unique` is computed and never looked at. Two constraints of a set that share a body: the row written later wins
  (`body_idx` is all first bodies, then all second bodies), the other step is lost and the sum of the momenta is off by exactly that step
  (`C99_shared`, `C99_lost`). `unique` compares raw indices: 1 and -2 count as different although with three bodies they are the same body.
* C100: `variational_lie_verlet` moves the motor with `exp2(rate_half * dt / -4)`, which is half of the rate that `rate_half` stands for in its own
  equation (`C100_speed_verlet`); the other integrators use `exp2(rate * dt / 2)` on the reversed motor, the full rate (`C100_speed_newmark`).
  The docstring of the test says that lie-verlet "seems very broken". `new3` is marked as unfinished in the code and is not modelled.
* Importing examples/pga2d.py changes `exp` everywhere for bivectors of algebras of at most three dimensions: without the `xy` part in the layout the
  norm has no values and `values[..., 0]` raises (`C103_wrong`), and for boosts the norm is the root of a negative number (`C103_boost`). Without the import both work.
* `step` of run_chain_torch.py makes ten steps of `dt / unroll` whatever `unroll` is, so with another `unroll` than ten it does not advance the time by `dt`
  (`C106_stepTorch`). The numpy example keeps the state of its first step only (`C106_run`): the animation has one frame.
* In exact arithmetic the chain of the examples can not make its first step, in the plane or in space: its joints hold, the bodies fall side by side, and `v_apply` is 0/0
  (`C107_chain`, `C107_run`). What a run shows depends on rounding errors.
* `random_nonnegative_normal_vector` of the test helpers can have a negative square with two or more negative basis vectors (`C108_nonnegative_iff`), and
  `random_motor` returns zero where a scalar part is zero, as `np.sign(0)` is zero (`C108_motor`).
* In six dimensions with a degenerate metric `inverse` of a bivector can be wrong: for `ab + cd + ef` with signature `0+0+++` it drops the part with all six
  basis vectors of the inverse (`C47_dim6`).

Found while modelling (read from the code; not stated as theorems):

* `inverse_transform`, `reverse_transform`, `join`, `meet`, `project`, `dual_norm_squared`, `decompose_polar` and
  `add_broadcast` always raise (missing methods or wrong argument counts).
* The subspace namespaces `restrict[...]`/`restrict(...)` select instead of restricting.
* `select`, `degenerate`, `nondegenerate` of the operator factory drop an operator argument.
* `is_n_simple` and `k_reflection` with negative numbers recurse forever.
* `nan_to_num(0)` turns infinities into the largest float, not 0.
* Kernels of `identity` and `select` have the unsigned blade dtype; negating one raises in numpy 2.
* `symmetry` over six or more axes would overflow `int8`.
* `from_blades` does not check that blades are below `2^n`.  `partial({})` builds an invalid einsum expression.
* In signatures with only null vectors `k_reflection(2)` lacks the scalar, so `motor_log_linear_normalized` finds no implementation.

## 6. Trusted base

* Lean's kernel; the axioms `propext`, `Classical.choice`, `Quot.sound` (checked with `#print axioms` for all theorems in the
  manifest).  No own axioms, no `sorry`, no `native_decide`, no `bv_decide`.
* The reading of the Python code into the model (cited in the model files), and of the semantics of Python and numpy functions the code
  calls: `lexsort`, `unique`, `in1d`-style set operations, `tensordot`, `moveaxis`, `einsum`, `take`, `linalg.inv` (exact inverse,
  truncated by the cast), integer dtypes and their wrap-around, dict and `functools.cache` behaviour.
* That jax and torch array functions compute what their numpy counterparts do.

Modelled: `algebra/bitops.py`, `algebra/algebra.py`, `algebra/description.py`, `subspace/subspace.py`, `subspace/factory.py`,
`subspace/namespaces.py` (as used), `flyweight.py`, `operator/operator.py`, `operator/sparse_tensor.py`, `operator/abstract.py`,
`operator/factory.py`, `backend/{numpy,jax,torch,python}/operator.py`, `backend/numpy/multivector.py`, `context.py`,
`dynamic_dispatch.py`, `multivector/multivector.py`, `multivector/factory.py`, `multivector/helper.py`,
`multivector/extension/{inverse,norms,roots,logexp,decompose,optimized}.py`, `multivector/numerical_normalize.py`, `multivector/test/util.py` (single multivectors), `examples/ga_sparse.py`, `examples/integrators.py`, `examples/physics/lie_integrators.py` (without `new3`), `examples/test_simplex.py` (without the sampled sums), `examples/pga2d.py` (single points; not the test), `examples/physics/setup_chain.py`, the loops of `examples/physics/run_chain_{numpy,jax,torch}.py`, `examples/tennis_racket_theorem.py` (without the plots),
`examples/physics/base.py` and `examples/physics/core.py` (a set of bodies is a list of bodies; not slicing and concatenation of sets), the indices and sets of constraints in `examples/physics/setup_chain.py`,
`examples/conformal.py` (not `project`,
the mixin's `unembed` and the injection of the mixin into the classes).

Not modelled: floating-point rounding, jit tracing and pytrees, device placement, printing of values, `test` directories other than `multivector/test/util.py`, `examples` other than those listed.
