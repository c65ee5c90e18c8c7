{"id": "C01", "title": "Grade of a blade is its number of basis vectors", "statement": "For every blade bit pattern of every supported integer width, Algebra.grade returns exactly the number of set bits, and Algebra.bit_dot returns exactly the number of basis vectors shared by two blades.", "quantifier": "all widths 8/16/32/64 bit, all bit patterns", "why_tests_cant": "there are up to 2^32 patterns per width and the code goes through a byte view and a lookup table", "anchors": ["numga/algebra/bitops.py:bit_count", "numga/algebra/bitops.py:bit_count_radix", "numga/algebra/algebra.py:Algebra.grade", "numga/algebra/algebra.py:Algebra.bit_dot"]}
{"id": "C02", "title": "Blade product is the Clifford product of the declared signature", "statement": "For every signature of +,-,0 basis vectors of dimension 1..32 and all blades a, b: Algebra.product gives (a xor b, s) with e_a e_b = s e_(a xor b) in the Clifford algebra of the diagonal quadratic form, where e_a is the increasing product of the basis vectors in a. Fixed-width shifts and 8-bit swap counters never change the answer.", "quantifier": "all signatures, all pairs of blades", "why_tests_cant": "3^32 signatures and 4^32 pairs; the overflow of the int8 swap counter only starts at dimension 17", "anchors": ["numga/algebra/algebra.py:Algebra.product", "numga/algebra/algebra.py:Algebra.cayley", "numga/algebra/bitops.py:parity_to_sign"]}
{"id": "C03", "title": "The product table is associative and unital", "statement": "For all blades a,b,c of any algebra, multiplying (a b) c and a (b c) with Algebra.product gives the same blade and the same sign (including zero), and the scalar blade is a two-sided unit.", "quantifier": "all signatures, all triples of blades", "why_tests_cant": "8^n triples per signature", "anchors": ["numga/algebra/algebra.py:Algebra.product"]}
{"id": "C04", "title": "Reversal, involution and conjugation signs are the Clifford ones", "statement": "For every multivector x of any subspace: x.reverse(), x.involute() and x.conjugate() are the Clifford reversal, grade involution and their composition; hence ~(x*y) = ~y*~x, involute(x*y) = involute(x)*involute(y), and each is its own inverse.", "quantifier": "all signatures, subspaces, multivectors", "why_tests_cant": "quantifies over all pairs of multivectors of all subspaces", "anchors": ["numga/algebra/algebra.py:Algebra.reverse", "numga/algebra/algebra.py:Algebra.involute", "numga/operator/factory.py:OperatorFactory.reverse", "numga/operator/factory.py:OperatorFactory.involute", "numga/operator/factory.py:OperatorFactory.conjugate"]}
{"id": "C05", "title": "Pseudoscalar square", "statement": "Algebra.pseudo_scalar_squared is 0 if the signature has a null vector and otherwise (-1)^(n(n-1)/2 + q), q the number of negative basis vectors.", "quantifier": "all signatures", "why_tests_cant": "unbounded family of signatures", "anchors": ["numga/algebra/algebra.py:Algebra.pseudo_scalar_squared"]}
{"id": "C06", "title": "Description strings round-trip", "statement": "Parsing an algebra's description_str gives back the same basis names and signature; from_str accepts exactly the strings whose last character is a sign, and its names never contain a sign character.", "quantifier": "all strings", "why_tests_cant": "all strings", "anchors": ["numga/algebra/description.py:parse_description", "numga/algebra/description.py:AlgebraDescription.description_str"]}
{"id": "C07", "title": "from_pqr yields the requested signature", "statement": "from_pqr(p,q,r) with 1 <= p+q+r <= 26 gives a description whose pqr is (p,q,r), ordered positives, negatives, nulls. For p+q+r > 26 the dimension is silently 26.", "quantifier": "all p,q,r", "why_tests_cant": "all triples", "anchors": ["numga/algebra/description.py:AlgebraDescription.from_pqr", "numga/algebra/description.py:AlgebraDescription.from_signature", "numga/algebra/description.py:AlgebraDescription.pqr"]}
{"id": "C08", "title": "Blade dtype always holds every blade and every table index", "statement": "An Algebra can be constructed exactly for dimensions 1..32, and then the chosen unsigned dtype holds every blade bit pattern and every row/column index of any product table between its subspaces.", "quantifier": "all dimensions and subspaces", "why_tests_cant": "indices overflow only in full tables of large algebras", "anchors": ["numga/algebra/bitops.py:minimal_uint_type", "numga/operator/sparse_tensor.py:SparseTensor.from_cayley"]}
{"id": "C09", "title": "Product of two algebras", "statement": "A*B is defined iff no basis name is shared; its signature is the concatenation, dimensions add, pqr adds, and products of blades coming from A (low bits) or from B (high bits) have the same signs as in A or B, while generators of A and B anticommute.", "quantifier": "all pairs of algebras and blades", "why_tests_cant": "all pairs", "anchors": ["numga/algebra/algebra.py:Algebra.__mul__", "numga/algebra/description.py:AlgebraDescription.__mul__"]}
{"id": "C10", "title": "Blade-name parsing", "statement": "For basis names where none is a prefix of another, parse_tokens applied to a concatenation of basis names returns exactly the indices of those names, for any sequence of names; a string with an unrecognised tail raises.", "quantifier": "all prefix-free name tables, all token sequences", "why_tests_cant": "all sequences", "anchors": ["numga/algebra/description.py:AlgebraDescription.parse_tokens"]}
{"id": "C11", "title": "Subspace identity is set equality (flyweight)", "statement": "After any history of subspace constructions on one algebra, two constructed subspaces compare equal (are the same object) iff they contain the same set of blades, whatever order the blades were given in.", "quantifier": "all histories of constructions", "why_tests_cant": "histories are unbounded", "anchors": ["numga/subspace/factory.py:SubSpaceFactory.from_blades", "numga/subspace/factory.py:SubSpaceFactory.order_blades", "numga/flyweight.py:FlyweightFactory.factory_construct", "numga/flyweight.py:FlyweightMixin"]}
{"id": "C12", "title": "Canonical blade order", "statement": "from_blades keeps exactly the given blades, sorted by grade and then by bit pattern, strictly increasing; it raises iff the input has duplicates.", "quantifier": "all lists of blades", "why_tests_cant": "all lists", "anchors": ["numga/subspace/factory.py:SubSpaceFactory.order_blades", "numga/subspace/subspace.py:SubSpace.__init__"]}
{"id": "C13", "title": "Subspace set algebra", "statement": "union, intersection, difference, `in`, restrict_subspace and select_subspace on subspaces are the set operations on their blade sets (select_subspace returns the selected space).", "quantifier": "all pairs of subspaces", "why_tests_cant": "2^(2^n) subspaces", "anchors": ["numga/subspace/subspace.py:SubSpace.union", "numga/subspace/subspace.py:SubSpace.intersection", "numga/subspace/subspace.py:SubSpace.difference", "numga/subspace/subspace.py:SubSpace.is_subspace", "numga/subspace/subspace.py:SubSpace.select_subspace"]}
{"id": "C14", "title": "Grade constructors", "statement": "from_grades(gs) with valid distinct grades contains exactly the blades with a grade in gs; k_vector(-k) is grade n+1-k; scalar, vector, ..., pseudoscalar, even_grade, odd_grade, self_reverse, nonscalar, full are the corresponding sets; out-of-range or repeated grades raise.", "quantifier": "all dimensions, all grade lists", "why_tests_cant": "all dimensions", "anchors": ["numga/subspace/factory.py:SubSpaceFactory.from_grades", "numga/subspace/factory.py:SubSpaceFactory.k_vector", "numga/subspace/factory.py:SubSpaceFactory.blades_by_grade", "numga/subspace/factory.py:SubSpaceFactory.even_grade", "numga/subspace/factory.py:SubSpaceFactory.self_reverse"]}
{"id": "C15", "title": "Index/blade round-trip in a subspace", "statement": "to_relative_indices inverts indexing: blades[to_relative_indices(b)] = b for blades of the subspace, and it raises for any other blade; slice_subspace of increasing indices keeps the canonical order.", "quantifier": "all subspaces", "why_tests_cant": "all subspaces", "anchors": ["numga/subspace/subspace.py:SubSpace.to_relative_indices", "numga/subspace/subspace.py:SubSpace.slice_subspace"]}
{"id": "C16", "title": "Complement of a subspace", "statement": "complement() is an involution on subspaces, maps grade k blades to grade n-k blades, preserves the number of blades and exchanges union with union.", "quantifier": "all subspaces", "why_tests_cant": "all subspaces", "anchors": ["numga/subspace/subspace.py:SubSpace.complement", "numga/algebra/algebra.py:Algebra.complement"]}
{"id": "C17", "title": "Degenerate / nondegenerate split", "statement": "degenerate() and nondegenerate() partition a subspace; a blade is degenerate iff its square under the algebra product is zero; x.degenerate() + x.nondegenerate() = x for every multivector.", "quantifier": "all signatures, subspaces, multivectors", "why_tests_cant": "all subspaces", "anchors": ["numga/subspace/subspace.py:SubSpace.degenerate", "numga/subspace/subspace.py:SubSpace.nondegenerate", "numga/operator/factory.py:OperatorFactory.degenerate", "numga/operator/factory.py:OperatorFactory.nondegenerate"]}
{"id": "C18", "title": "Bit-string round-trip", "statement": "from_bit_str(S.bit_str) is S for every nonempty subspace S, and bit_str lists the blades in canonical order, lowest basis vector first.", "quantifier": "all subspaces", "why_tests_cant": "all subspaces", "anchors": ["numga/subspace/subspace.py:SubSpace.bit_str", "numga/subspace/factory.py:SubSpaceFactory.from_bit_str", "numga/algebra/bitops.py:biterator"]}
{"id": "C19", "title": "Subspace attribute syntax", "statement": "subspace.xy_zt names exactly the blades spelled out when no letter repeats within a blade. With a repeated letter the result is a different, unrelated blade (subspace.xx is subspace.y).", "quantifier": "all names of blades over single-letter bases", "why_tests_cant": "all spellings", "anchors": ["numga/subspace/factory.py:SubSpaceFactory.__getattr__"]}
{"id": "C20", "title": "minimal_subalgebra", "statement": "For every subspace the minimal_subalgebra loop terminates, its result contains the subspace, is closed under the geometric product (is_subalgebra) and is contained in every closed subspace that contains the input.", "quantifier": "all signatures including degenerate, all subspaces", "why_tests_cant": "fixpoint over all subspaces", "anchors": ["numga/subspace/subspace.py:SubSpace.minimal_subalgebra", "numga/subspace/subspace.py:SubSpace.is_subalgebra"]}
{"id": "C21", "title": "Operator fusion is function composition", "statement": "self.fuse(other, axis) applied to inputs equals other applied with self's result at position axis, for operators of any arity and any axis; it raises iff the output space differs from that input axis.", "quantifier": "all arities, axes, kernels, inputs", "why_tests_cant": "arity and sizes are unbounded", "anchors": ["numga/operator/operator.py:Operator.fuse"]}
{"id": "C22", "title": "Binding several arguments at once", "statement": "op.bind({i: op_i}) applied to inputs equals op applied with each op_i's result at position i, for any subset of positions and any arities.", "quantifier": "all arities, all partial bindings", "why_tests_cant": "arity and sizes are unbounded", "anchors": ["numga/operator/operator.py:Operator.bind", "numga/operator/operator.py:Operator.build", "numga/operator/operator.py:Operator._build"]}
{"id": "C23", "title": "squeeze is lossless and tight", "statement": "op.squeeze() computes the same multivector as op for all inputs, and every blade of its output space is reached by some nonzero kernel entry.", "quantifier": "all operators and inputs", "why_tests_cant": "all operators", "anchors": ["numga/operator/operator.py:Operator.squeeze"]}
{"id": "C24", "title": "symmetry preserves values on equal arguments", "statement": "If the arguments at the given axes are equal, op.symmetry(axes) gives the same multivector as op, for any number of axes; and when the exact branch is taken the kernel is invariant under all permutations of those axes.", "quantifier": "all operators, axis tuples and inputs", "why_tests_cant": "arity unbounded; both the exact and the masked branch", "anchors": ["numga/operator/operator.py:Operator.symmetry"]}
{"id": "C25", "title": "select / restrict semantics", "statement": "x.select_subspace(S) has subspace S and the coefficient of x at each blade of S (0 if absent); x.restrict_subspace(S) has the intersection as subspace and the same coefficients.", "quantifier": "all subspaces and multivectors", "why_tests_cant": "all subspaces", "anchors": ["numga/operator/factory.py:OperatorFactory.select", "numga/operator/factory.py:OperatorFactory.restrict", "numga/operator/operator.py:Operator.select_subspace", "numga/multivector/multivector.py:AbstractMultiVector.select_subspace"]}
{"id": "C26", "title": "Slicing operators", "statement": "op.slice(inputs) evaluates like op on multivectors of the smaller spaces, and deslice evaluates like op on the common blades, treating missing ones as zero.", "quantifier": "all operators, subspaces, inputs", "why_tests_cant": "all operators", "anchors": ["numga/operator/operator.py:Operator.slice", "numga/operator/operator.py:Operator.deslice"]}
{"id": "C27", "title": "Kernel entries stay in {-1,0,1}", "statement": "Every kernel produced by the operator factory has entries in {-1,0,1} and each combination of input blades feeds at most one output blade, so int8 storage never overflows, including intermediate sums of symmetry over at most 4 axes.", "quantifier": "all factory expressions over all subspaces", "why_tests_cant": "all expressions and algebras", "anchors": ["numga/operator/factory.py:OperatorFactory", "numga/operator/operator.py:Operator.symmetry", "numga/operator/sparse_tensor.py:SparseTensor.to_dense"]}
{"id": "C28", "title": "Geometric product of multivectors", "statement": "For multivectors x, y of any subspaces, x.product(y) (x*y) represents the Clifford product of what x and y represent; the result does not depend on which subspaces the inputs are stored in.", "quantifier": "all signatures, subspaces, coefficients", "why_tests_cant": "all inputs", "anchors": ["numga/operator/factory.py:OperatorFactory.make_product", "numga/operator/factory.py:OperatorFactory.geometric_product", "numga/multivector/multivector.py:AbstractMultiVector.product"]}
{"id": "C29", "title": "Wedge product is the exterior product", "statement": "x ^ y represents the product in the exterior algebra, independent of the metric; hence it is associative, and v ^ v = 0 for vectors.", "quantifier": "all signatures, subspaces, coefficients", "why_tests_cant": "all inputs", "anchors": ["numga/operator/factory.py:OperatorFactory.wedge_product"]}
{"id": "C30", "title": "Grade-selected products", "statement": "inner, scalar, left/right contraction, wedge and bivector products are exactly the sums over grades of the |i-j|, 0, j-i, i-j, i+j, 2 parts of the geometric product of the homogeneous parts.", "quantifier": "all signatures, subspaces, coefficients", "why_tests_cant": "all inputs", "anchors": ["numga/operator/operator.py:Operator.grade_selection", "numga/operator/factory.py:OperatorFactory.inner_product", "numga/operator/factory.py:OperatorFactory.scalar_product", "numga/operator/factory.py:OperatorFactory.left_contraction_product", "numga/operator/factory.py:OperatorFactory.right_contraction_product", "numga/operator/factory.py:OperatorFactory.n_product"]}
{"id": "C31", "title": "Vector times multivector splits", "statement": "For a vector v and any multivector M: v*M = v.left_contract(M) + v^M and M*v = M.right_contract(v) + M^v.", "quantifier": "all signatures, vectors, multivectors", "why_tests_cant": "all inputs", "anchors": ["numga/operator/factory.py:OperatorFactory.left_contraction_product", "numga/operator/factory.py:OperatorFactory.right_contraction_product", "numga/operator/factory.py:OperatorFactory.wedge_product"]}
{"id": "C32", "title": "Dual and inverse dual", "statement": "dual_inverse(dual(x)) = x and dual(dual_inverse(x)) = x for every multivector in every signature (also degenerate); right_complement_dual(b) of a basis blade b satisfies b * d(b) = I and left_complement_dual satisfies d(b) * b = I; the hodge variants give the same up to the metric sign of b.", "quantifier": "all signatures, subspaces, multivectors", "why_tests_cant": "all inputs", "anchors": ["numga/operator/factory.py:OperatorFactory.right_hodge", "numga/operator/factory.py:OperatorFactory.right_hodge_inverse", "numga/operator/factory.py:OperatorFactory.left_hodge_inverse", "numga/operator/factory.py:OperatorFactory.right_complement_dual", "numga/operator/factory.py:OperatorFactory.unary_inverse"]}
{"id": "C33", "title": "Regressive product", "statement": "dual(a & b) = dual(a) ^ dual(b); & is associative and bilinear, and the pseudoscalar is its unit up to the sign (-1)^q.", "quantifier": "all signatures, subspaces, multivectors", "why_tests_cant": "all inputs", "anchors": ["numga/operator/factory.py:OperatorFactory.regressive_product"]}
{"id": "C34", "title": "Anti-products", "statement": "anti_geometric_product(l, r) = left_complement(right_complement(l) * right_complement(r)), where the complements are I*v and v*I with null vectors treated as non-null; the anti-product is associative in odd dimensions but not in even dimensions.", "quantifier": "all signatures, subspaces, multivectors", "why_tests_cant": "all inputs", "anchors": ["numga/operator/factory.py:OperatorFactory.antify", "numga/operator/factory.py:OperatorFactory.anti_geometric_product", "numga/operator/factory.py:OperatorFactory.left_complement", "numga/operator/factory.py:OperatorFactory.right_complement"]}
{"id": "C35", "title": "Commutator products", "statement": "commutator(x,y) is exactly (xy-yx)/2 and anti_commutator(x,y) exactly (xy+yx)/2 (the integer halving never rounds and never fails); so their sum is x*y, the commutator satisfies the Jacobi identity, and commuting with a bivector preserves grade.", "quantifier": "all signatures, subspaces, multivectors", "why_tests_cant": "all inputs", "anchors": ["numga/operator/factory.py:OperatorFactory.make_commutator", "numga/operator/factory.py:OperatorFactory.commutator_product", "numga/operator/factory.py:OperatorFactory.anti_commutator_product", "numga/operator/operator.py:Operator.div"]}
{"id": "C36", "title": "Sandwich products", "statement": "full_sandwich(R,v) = R*v*~R and reverse_sandwich uses ~R*v*R; sandwich keeps exactly the grades present in v's subspace; if R is a product of vectors then sandwich equals the full sandwich on every k-vector.", "quantifier": "all signatures, subspaces, multivectors", "why_tests_cant": "all inputs", "anchors": ["numga/operator/factory.py:OperatorFactory.full_sandwich", "numga/operator/factory.py:OperatorFactory.sandwich", "numga/operator/factory.py:OperatorFactory.reverse_sandwich"]}
{"id": "C37", "title": "Sandwich output grades modulo four", "statement": "Sandwiching a k-vector subspace by an even (or odd) subspace only produces grades congruent to k modulo 4.", "quantifier": "all signatures, k, subspaces", "why_tests_cant": "dimension unbounded", "anchors": ["numga/operator/factory.py:OperatorFactory.full_sandwich", "numga/operator/operator.py:Operator.symmetry"]}
{"id": "C38", "title": "Symmetric involution products", "statement": "x.symmetric_reverse_product() = x*~x (same for involute, conjugate, scalar/pseudoscalar negation, squared) and the output space of x*~x only has grades 0 or 1 modulo 4.", "quantifier": "all signatures, subspaces, multivectors", "why_tests_cant": "all inputs", "anchors": ["numga/operator/factory.py:OperatorFactory.symmetric_reverse_product", "numga/operator/factory.py:OperatorFactory.squared", "numga/multivector/multivector.py:AbstractMultiVector.squared"]}
{"id": "C39", "title": "n-simplicity is sound", "statement": "If subspace S.is_reverse_n_simple(1) (or the other involutions), then x*~x (resp. the other product) is a scalar for every multivector x in S.", "quantifier": "all subspaces and multivectors", "why_tests_cant": "all inputs", "anchors": ["numga/subspace/subspace.py:SubSpace.is_n_simple", "numga/subspace/subspace.py:SubSpace.is_reverse_n_simple", "numga/subspace/subspace.py:SubSpace.is_squared_n_simple"]}
{"id": "C40", "title": "Dense and sparse execution agree", "statement": "Einsum, dense-broadcast and unrolled-sparse execution of any operator give the same multivector for all inputs, namely the multilinear map of the kernel.", "quantifier": "all operators, all inputs (exact arithmetic)", "why_tests_cant": "all kernels", "anchors": ["numga/operator/abstract.py:AbstractConcreteOperator.precompute_sparse", "numga/backend/numpy/operator.py:NumpyEinsumOperator.__call__", "numga/backend/numpy/operator.py:NumpySparseOperator.__call__", "numga/backend/jax/operator.py:JaxDenseOperator.__call__", "numga/backend/torch/operator.py:TorchSparseOperator.__call__"]}
{"id": "C41", "title": "Pure-python backend agreement", "statement": "The python backend gives the same result as the other backends whenever the scalar row of the output is written by the kernel (or absent); when the scalar is in the output space but no kernel entry reaches it, the python backend returns 1 there instead of 0.", "quantifier": "all operators, all inputs", "why_tests_cant": "all kernels", "anchors": ["numga/backend/python/operator.py:PythonSparseOperator.__call__", "numga/backend/python/multivector.py:PythonMultiVector.construct"]}
{"id": "C42", "title": "Partial application", "statement": "op.partial({i: x_i, ...}) followed by applying the remaining inputs in order equals applying op to all inputs, for any subset of positions; in particular R.sandwich_map(V)(v) = R.sandwich(v) and p.inertia_map(B)(b) = p & (p x b).", "quantifier": "all operators, subsets of positions, inputs", "why_tests_cant": "arity unbounded", "anchors": ["numga/backend/numpy/operator.py:NumpyOperator.partial", "numga/operator/abstract.py:AbstractConcreteOperator.precompute_einsum_partial", "numga/multivector/multivector.py:AbstractMultiVector.sandwich_map", "numga/multivector/multivector.py:AbstractMultiVector.inertia_map"]}
{"id": "C43", "title": "Operators are multilinear", "statement": "Applying any operator is additive and homogeneous in each argument separately.", "quantifier": "all operators and inputs", "why_tests_cant": "all inputs", "anchors": ["numga/backend/numpy/operator.py:NumpyEinsumOperator.__call__", "numga/backend/python/operator.py:PythonSparseOperator.__call__"]}
{"id": "C44", "title": "Addition, subtraction, negation, scalar upcast", "statement": "x+y, x-y, -x and mixed expressions with plain numbers represent the sum, difference, negation of the represented elements, whatever the two subspaces are.", "quantifier": "all subspaces and coefficients", "why_tests_cant": "all inputs", "anchors": ["numga/multivector/multivector.py:AbstractMultiVector.combine", "numga/multivector/multivector.py:AbstractMultiVector.__rsub__", "numga/multivector/multivector.py:AbstractMultiVector.upcast"]}
{"id": "C45", "title": "Default multivector is the unit", "statement": "A multivector constructed without values represents 1 if its subspace has the scalar and 0 otherwise, so in the first case it is a two-sided identity of the geometric product.", "quantifier": "all subspaces", "why_tests_cant": "all inputs", "anchors": ["numga/backend/numpy/multivector.py:NumpyMultiVector.construct"]}
{"id": "C46", "title": "Named basis blades", "statement": "multivector.<name> for a sequence of distinct basis names is the wedge of those vectors: the canonical blade with the sign of the permutation; with a repeated name it is zero.", "quantifier": "all token sequences", "why_tests_cant": "all sequences", "anchors": ["numga/multivector/factory.py:MultiVectorFactory.__getattr__", "numga/multivector/factory.py:MultiVectorFactory.basis"]}
{"id": "C47", "title": "Recursive inverse is an inverse", "statement": "In dimension < 6, whenever x.inverse() performs no division by zero its result y satisfies x*y = 1 = y*x; and dispatch finds an implementation for every nonempty subspace of every signature.", "quantifier": "all signatures of dimension < 6, all subspaces, all coefficients", "why_tests_cant": "2^32 subspaces in 5d alone, and all coefficients", "anchors": ["numga/multivector/extension/inverse.py:simplify_inverses", "numga/multivector/extension/inverse.py:register_special_case_5d", "numga/multivector/multivector.py:AbstractMultiVector._divide"]}
{"id": "C48", "title": "Hitzer inverse", "statement": "In dimension < 4, x.inverse_hitzer() is the two-sided inverse of x whenever its scalar denominator is nonzero.", "quantifier": "all signatures of dimension < 4, all subspaces and coefficients", "why_tests_cant": "all inputs", "anchors": ["numga/multivector/multivector.py:AbstractMultiVector.inverse_hitzer", "numga/operator/factory.py:OperatorFactory.inverse_factor"]}
{"id": "C49", "title": "Division", "statement": "(x / y) * y = x whenever y.inverse() is a genuine inverse; dividing by a scalar divides every coefficient.", "quantifier": "all multivectors", "why_tests_cant": "all inputs", "anchors": ["numga/multivector/multivector.py:AbstractMultiVector._divide", "numga/multivector/multivector.py:AbstractMultiVector.__rtruediv__"]}
{"id": "C50", "title": "Square root of study numbers", "statement": "For a study number x (real coefficients) with nonnegative study norm squared and (scalar + norm) > 0, x.square_root() squares to x.", "quantifier": "all study subspaces and real coefficients", "why_tests_cant": "all inputs", "anchors": ["numga/multivector/extension/roots.py:study_square_root", "numga/multivector/extension/roots.py:study_degenerate_square_root", "numga/multivector/extension/norms.py:study_norm"]}
{"id": "C51", "title": "Motor square root", "statement": "If m is an even element with m*~m = 1, and normalisation of m+1 goes through a scalar or study norm without division by zero, then s = m.motor_square_root() satisfies s*s = m and s*~s = 1.", "quantifier": "all signatures with such norms, all m", "why_tests_cant": "all inputs", "anchors": ["numga/multivector/extension/roots.py:motor_square_root", "numga/multivector/extension/norms.py:reverse_study_normalized", "numga/multivector/extension/norms.py:reverse_scalar_normalized"]}
{"id": "C52", "title": "Linear and Cayley exp/log pairs invert each other", "statement": "motor_log_linear(exp_linear(b)) = b for every bivector b; motor_log_linear_normalized(exp_linear_normalized(b)) = b in dimension < 6 whenever no division by zero occurs; exp_cayley and motor_log_cayley invert each other and produce elements of unit norm; exp_bisect(motor_log_bisect(m)) = m for motors of unit norm in dimension < 6 whenever the roots exist and no division by zero occurs.", "quantifier": "all signatures, all bivectors and motors, any number of bisections", "why_tests_cant": "all inputs", "anchors": ["numga/multivector/extension/logexp.py:exp_linear", "numga/multivector/extension/logexp.py:motor_log_linear", "numga/multivector/extension/logexp.py:exp_linear_normalized", "numga/multivector/extension/logexp.py:motor_log_linear_normalized", "numga/multivector/extension/logexp.py:exp_cayley"]}
{"id": "C53", "title": "Degenerate exponential", "statement": "exp of a degenerate bivector b is 1+b, which is exact when the signature has at most one null vector (b*b = 0); with two or more null vectors b*b can be nonzero. The exp dispatch ends in a branch that matches everything, so exp of a vector returns a value; for translators m = 1 + b, exp(motor_log(m)) = m, but not for m = -1 + b.", "quantifier": "all signatures, all degenerate elements", "why_tests_cant": "all inputs", "anchors": ["numga/multivector/extension/logexp.py:degenerate_exp", "numga/subspace/subspace.py:SubSpace.is_degenerate"]}
{"id": "C54", "title": "Dynamic dispatch follows registration order", "statement": "A dispatched call runs the first registered implementation whose condition accepts the argument subspaces, for every history of registrations and calls in which no registration happens after an equal-typed call; a later registration at position 0 is ignored for already-seen argument types until the cache is reset.", "quantifier": "all histories of register/call/reset", "why_tests_cant": "histories are unbounded", "anchors": ["numga/dynamic_dispatch.py:DynamicDispatch.match", "numga/dynamic_dispatch.py:DynamicDispatch.__call__", "numga/dynamic_dispatch.py:DynamicDispatch.register", "numga/multivector/extension/optimized.py"]}
{"id": "C55", "title": "Concrete operator cache is transparent", "statement": "context.operator.<name>(*args) returns, after any history of calls and changes of the context's operator type, a concrete operator of the current type wrapping the operator the abstract factory builds for those arguments.", "quantifier": "all histories of calls and otype changes", "why_tests_cant": "histories are unbounded", "anchors": ["numga/context.py:ConcreteOperatorFactory.__getattr__"]}
{"id": "C56", "title": "Functional update leaves the original alone", "statement": "x.at[idx].set(v) returns a multivector with the entries at idx replaced and never changes x or any other existing multivector.", "quantifier": "all heaps of arrays, indices and values", "why_tests_cant": "aliasing over arbitrary histories", "anchors": ["numga/multivector/helper.py:IndexHelper.set", "numga/backend/numpy/context.py:NumpyContext.set_array"]}
{"id": "C57", "title": "Even subspace is closed", "statement": "even_grade() is a subalgebra for every signature; products of even/odd subspaces have the parity of the sum; k_reflection(k) only contains grades <= k with the parity of k.", "quantifier": "all signatures and k", "why_tests_cant": "all dimensions", "anchors": ["numga/subspace/factory.py:SubSpaceFactory.even_grade", "numga/subspace/factory.py:SubSpaceFactory.k_reflection", "numga/subspace/subspace.py:SubSpace.product"]}
{"id": "C58", "title": "transform is the grade-preserving sandwich with the reflection sign", "statement": "R.transform(v) returns, cut down to the grades of v, R * v * ~R for even R and R * v^ * ~R (v^ the grade involution of v) for odd R, so that for normalized versors transform(R, v) ^ transform(R, u) == transform(R, v ^ u); for R empty or of mixed parity it raises.", "quantifier": "all algebras, all R and v in any subspaces, all coefficients; the code violates it for some shapes, which is to be characterised", "why_tests_cant": "no test calls transform; the sign mask is broadcast along the wrong kernel axis, and whether this raises, is harmless or corrupts the result depends on the sizes and grades of both operands", "anchors": ["numga/operator/factory.py:OperatorFactory.transform"]}
{"id": "C59", "title": "inverse_shirokov is an inverse", "statement": "x.inverse_shirokov() returns exactly if x is invertible, and then x * result = result * x = 1; otherwise it divides by zero. This holds in every dimension and signature, degenerate ones included.", "quantifier": "all signatures and all multivectors over a field of characteristic zero", "why_tests_cant": "the recursion length grows with the dimension", "anchors": ["numga/multivector/multivector.py:inverse_shirokov"]}
{"id": "C60", "title": "minimal_exponential is the least space closed under squaring", "statement": "s.minimal_exponential() terminates; its result contains s and the scalar, contains the square (and so every power) of each of its elements, and is contained in every subspace that does.", "quantifier": "all signatures, all subspaces, all rings in which 2 is not a zero divisor for the powers", "why_tests_cant": "quantifies over all containing subspaces and all powers", "anchors": ["numga/subspace/subspace.py:SubSpace.minimal_exponential"]}
{"id": "C61", "title": "Degenerate, rotor and translator spaces", "statement": "degenerate(), nondegenerate(), scalar_degenerate(), rotor() and translator() of the subspace factory contain exactly the blades described by their names; rotors and the nondegenerate space are subalgebras in every signature, the degenerate space is an ideal, translators are a subalgebra when there is one null vector; is_degenerate and is_degenerate_scalar decide what they say.", "quantifier": "all signatures", "why_tests_cant": "all signatures and dimensions", "anchors": ["numga/subspace/factory.py:SubSpaceFactory.translator", "numga/subspace/factory.py:SubSpaceFactory.rotor", "numga/subspace/factory.py:SubSpaceFactory.degenerate", "numga/subspace/subspace.py:SubSpace.is_degenerate_scalar"]}
{"id": "C62", "title": "Batches are computed entry by entry", "statement": "Applying any operator to arrays of multivectors (leading broadcasting axes) gives at each index what it gives for the single multivectors at that index; more generally operators commute with every ring homomorphism of the coefficients.", "quantifier": "all operators, all index sets, all commutative rings and homomorphisms", "why_tests_cant": "quantifies over all batch shapes and coefficient rings", "anchors": ["numga/backend/numpy/operator.py:NumpyEinsumOperator.__call__", "numga/backend/numpy/operator.py:NumpyOperator.broadcast_allocate"]}
{"id": "C63", "title": "normalized yields unit norm", "statement": "Whenever x.normalized() returns y, then y*~y = ~y*y = 1, and x is a self-reverse square root of x*~x times y. It does return when x*~x lies in a study subspace with positive scalar part plus norm and nonzero study norm.", "quantifier": "all signatures, all subspaces, all real coefficients", "why_tests_cant": "all inputs; the subspace of x*~x decides the code path", "anchors": ["numga/multivector/extension/norms.py:reverse_study_normalized", "numga/multivector/extension/norms.py:reverse_scalar_normalized", "numga/multivector/extension/roots.py:scalar_inverse_square_root"]}
{"id": "C64", "title": "Derived products equal the product with the conjugated operand", "statement": "x.reverse_product(y), x.involute_product(y), x.conjugate_product(y), x.scalar_negation_product(y) and x.pseudoscalar_negation_product(y) equal x * op(y), both as elements of the Clifford algebra and as the composed calls; scalar_negation and study_conjugate keep the scalar coefficient and negate every other one, pseudoscalar_negation keeps scalar and pseudoscalar; x*~x is its own reverse and x*conj(x) its own conjugate.", "quantifier": "all signatures, all subspaces of both operands, all coefficients of any commutative ring", "why_tests_cant": "all signatures and subspaces; the composed kernels are built symbolically per subspace", "anchors": ["numga/operator/factory.py:OperatorFactory.reverse_product", "numga/operator/factory.py:OperatorFactory.involute_product", "numga/operator/factory.py:OperatorFactory.conjugate_product", "numga/operator/factory.py:OperatorFactory.scalar_negation", "numga/operator/factory.py:OperatorFactory.pseudoscalar_negation"]}
{"id": "C65", "title": "Anti-products are products between complements", "statement": "anti_wedge, anti_inner, anti_product and anti_reverse_product of x and y equal left_complement(op(right_complement x, right_complement y)); commutator_anti and anti_commutator_anti are half the difference and half the sum of the two anti-products and add up to the anti-product; anti_wedge is associative in odd dimensions (and in no even dimension).", "quantifier": "all signatures, all subspaces, all coefficients of any commutative ring; for the negative result every even dimension", "why_tests_cant": "quantifies over all dimensions and subspaces", "anchors": ["numga/operator/factory.py:OperatorFactory.antify", "numga/operator/factory.py:OperatorFactory.anti_wedge_product", "numga/operator/factory.py:OperatorFactory.anti_inner_product", "numga/operator/factory.py:OperatorFactory.anti_geometric_product", "numga/operator/factory.py:OperatorFactory.anti_reverse_product", "numga/operator/factory.py:OperatorFactory.commutator_anti_product"]}
{"id": "C66", "title": "The cross product is the dual of the wedge and the usual one in Euclidean space", "statement": "x.cross(y) equals x.wedge(y).dual(); with signature +++ and vectors x, y its coefficients are the components of the classical cross product and every other coefficient is zero.", "quantifier": "first part: all signatures, subspaces and coefficients; second part: all vectors over any commutative ring, in any subspace containing them", "why_tests_cant": "all coefficients and all subspaces", "anchors": ["numga/operator/factory.py:OperatorFactory.cross_product"]}
{"id": "C67", "title": "norm_squared and norm", "statement": "x.norm_squared() is x * ~x. x.norm() of a scalar is its absolute value, in the subspace of x. For any other x whose x * ~x lies in a study subspace, norm() returns a multivector whose square is x * ~x: the non-negative root when x * ~x is a non-negative scalar, and the study root when its scalar part and discriminant admit one. When x * ~x is not in a study subspace the call fails instead of returning a value.", "quantifier": "all signatures, all subspaces, all coefficients in any ordered field with the root functions of the backend taken as exact roots", "why_tests_cant": "all signatures and coefficients; the dispatch depends on the symbolic output space of x * ~x", "anchors": ["numga/multivector/extension/norms.py:norm", "numga/multivector/extension/norms.py:norm_squared"]}
{"id": "C68", "title": "Constructors take exactly the number of coefficients of their subspace", "statement": "context.multivector(subspace, values) succeeds iff the number of values is the number of blades, and value i becomes the coefficient of blade i. blade(b, s) is s times the basis blade. k_vector takes exactly binomial(n, k) values and even_grade exactly 2^(n-1), stored in the order of the subspace.", "quantifier": "all signatures, subspaces, grades (negative grades counted from the top) and value lists", "why_tests_cant": "all dimensions and all lists", "anchors": ["numga/multivector/factory.py:multivector", "numga/multivector/factory.py:blade", "numga/multivector/factory.py:k_vector", "numga/multivector/factory.py:even_grade"]}
{"id": "C69", "title": "select_grade and restrict_grade are grade projections", "statement": "x.select_grade(k) and x.restrict_grade(k) both have the value of the grade k part of x; the first lives in the full k-vector subspace, the second in the k-vectors occurring in x. Grades out of range fail.", "quantifier": "all signatures, subspaces, coefficients and grades, negative grades included", "why_tests_cant": "all subspaces and grades", "anchors": ["numga/multivector/multivector.py:AbstractMultiVector.select_grade", "numga/multivector/multivector.py:AbstractMultiVector.restrict_grade"]}
{"id": "C70", "title": "Subspaces of wedge, inner and reject, and the grade of a subspace", "statement": "S.wedge(T) consists exactly of the unions of disjoint blades of S and T. S.inner(T) consists exactly of the differences of a blade of one and a blade of the other that contains it, without common null vector. S.reject(T) is the composition of both. scalar_degenerate() is the scalar together with the blades of S with a null vector. grade() returns g iff S is not empty and all its blades have g vectors, and raises otherwise; a k-vector space has binomial(n,k) blades and grade k.", "quantifier": "all signatures, all pairs of subspaces", "why_tests_cant": "there are 2^(2^n) subspaces in each of the infinitely many algebras", "anchors": ["numga/subspace/subspace.py:SubSpace.wedge", "numga/subspace/subspace.py:SubSpace.inner", "numga/subspace/subspace.py:SubSpace.reject", "numga/subspace/subspace.py:SubSpace.scalar_degenerate", "numga/subspace/subspace.py:SubSpace.grade"]}
{"id": "C71", "title": "Sums, multiples and axis sums of operators act pointwise", "statement": "a + b and a - b of two operators raise iff their axes differ, and otherwise return for all inputs the sum or difference of the results of a and b. a * s and -a return the multiples. a.sum(axis) returns the value of a with the multivector with all coefficients 1 in place of that input.", "quantifier": "all operators of any arity, all axes, all coefficients in any commutative ring", "why_tests_cant": "operators of every arity and all inputs", "anchors": ["numga/operator/operator.py:Operator.add", "numga/operator/operator.py:Operator.__sub__", "numga/operator/operator.py:Operator.__neg__", "numga/operator/operator.py:Operator.mul", "numga/operator/operator.py:Operator.sum"]}
{"id": "C72", "title": "Cubes and inverse factors have the smallest possible subspace", "statement": "cubed, inverse_factor, inverse_factor_completed and their alternatives, and the compositions of involutions that the subspace queries search, compute on the diagonal the formulas they stand for. Their output subspaces contain a blade iff the formula has a nonzero coefficient there for some multivector in the input subspace. symmetric_alt_product and is_alt_n_simple answer accordingly.", "quantifier": "all signatures and subspaces; all multivectors in them over any commutative ring; all pairs of involutions", "why_tests_cant": "symbolic cancellation has to be right for all coefficients", "anchors": ["numga/operator/factory.py:OperatorFactory.cubed", "numga/operator/factory.py:OperatorFactory.inverse_factor", "numga/operator/factory.py:OperatorFactory.inverse_factor_completed", "numga/operator/factory.py:OperatorFactory.inverse_factor_alt", "numga/operator/factory.py:OperatorFactory.compose_symmetry_ops", "numga/subspace/subspace.py:SubSpace.cubed", "numga/subspace/subspace.py:SubSpace.symmetric_alt_product", "numga/subspace/subspace.py:SubSpace.is_alt_n_simple"]}
{"id": "C73", "title": "Selecting outputs of operators, euclidian factorization, and solve", "statement": "op.select_subspace(o) and op.select_grade(k) keep exactly the coefficients of the result in o or in grade k. euclidian_factorization computes the bivector part of the dual of x times its dual, in the smallest subspace. solve(x, rhs) returns the product restricted to a subspace Y of unknowns; Y contains every blade on which the coefficients of x * y in rhs depend. It need not contain a solution that exists in the whole algebra.", "quantifier": "all signatures, subspaces, operators and coefficients in any commutative ring; the last sentence by a witness", "why_tests_cant": "all subspaces, and nonexistence of a solution over all coefficients", "anchors": ["numga/operator/operator.py:Operator.select_subspace", "numga/operator/operator.py:Operator.select_grade", "numga/operator/factory.py:OperatorFactory.euclidian_factorization", "numga/operator/factory.py:OperatorFactory.solve"]}
{"id": "C74", "title": "decompose_invariant splits a bivector into commuting simple parts", "statement": "If b.decompose_invariant() returns (l, r), both are bivectors with l + r == b. In fewer than six dimensions (and whenever b*b*b is a bivector) l and r commute, l*l and r*r are numbers, l*r is half of the non-scalar part of b*b, and l.inner(r) is zero. For a bivector whose square is a study number it returns exactly if the required square root exists and is not zero; isoclinic bivectors divide by zero. There is no implementation for anything else.", "quantifier": "all signatures in the stated dimensions, all subspaces of bivectors, all coefficients in a field", "why_tests_cant": "identities over all bivectors; the failing set has measure zero", "anchors": ["numga/multivector/extension/decompose.py:decompose_invariant", "numga/multivector/extension/decompose.py:bivector_decompose_bisimple"]}
{"id": "C75", "title": "motor_translator and motor_rotor factor a motor", "statement": "In an algebra with exactly one null basis vector and fewer than six dimensions, for an even m with m*~m == 1, t = m.motor_translator() and r = m.motor_rotor() are normalised, r is the part of m without the null vector, t - 1 is a bivector that squares to zero, and t*r is m with its part containing the null vector multiplied by (-1)^k, k the number of basis vectors with negative square. So t*r == m exactly if k is even or that part is zero. Motors stored without null vectors have translator 1 and are their own rotor; odd elements have no implementation.", "quantifier": "all such signatures, all motors over a field of characteristic not two", "why_tests_cant": "all motors; the sign error shows only in signatures that are not tested", "anchors": ["numga/multivector/extension/decompose.py:motor_translator", "numga/multivector/extension/decompose.py:motor_rotor"]}
{"id": "C76", "title": "motor_split returns a split of the motor at the origin", "statement": "Let m be even with m*~m == 1 and o of the highest but one grade, and let m keep the grade of o (all products of vectors do, below five dimensions all even elements do). If the complement of o is not null, whatever m.motor_split(o) returns satisfies t*r == m, t*~t == 1, r*~r == 1, r >> o == o and t >> o == m >> o; and if o is stored in one blade, restricting t to products with the complement of o and r to the blades of m without it loses nothing. If the complement of o is the only null basis vector, it returns the translator and rotor of C75. Other arguments have no implementation.", "quantifier": "all signatures of two to five dimensions, all subspaces, all coefficients in a field of characteristic not two, any principal root", "why_tests_cant": "all motors and origins; that subspace selection loses nothing is a statement about all values", "anchors": ["numga/multivector/extension/decompose.py:motor_split", "numga/multivector/extension/decompose.py:motor_split_blade", "numga/multivector/extension/decompose.py:motor_split_euclidian"]}
{"id": "C77", "title": "Labels and names of subspaces describe their blades", "statement": "pretty_str of any subspace is 'is_' followed by the first label of the list whose set of blades equals the subspace, or, if there is none, 'in_' followed by the first label whose set contains it; some label always applies. If the basis names are prefix-free (and contain neither a comma nor a leading 1), named_str lists the names of the blades in storage order, two subspaces with the same named_str are equal, and each listed name, used as an attribute of the multivector factory, gives that blade with coefficient 1.", "quantifier": "all algebras and subspaces", "why_tests_cant": "a statement about every subspace and every naming of the basis", "anchors": ["numga/subspace/subspace.py:SubSpace.pretty_str", "numga/subspace/subspace.py:SubSpace.named_str"]}
{"id": "C78", "title": "The optimised normalisation of 3D motors agrees with the generic one", "statement": "The conditions under which the optimised methods apply hold for exactly one subspace of the algebra x+y+z+w0 each. If the rotation part of a motor is not zero, the optimised normalized() returns y in the same layout with y*~y == ~y*y == 1; otherwise the result is not finite. Whatever the generic normalized() returns for any subspace of any algebra, the method with the optimisation returns the same value; and for motors with a rotation part both return.", "quantifier": "all algebras given by a description string, all subspaces, all coefficients in an ordered field with square roots", "why_tests_cant": "equality of two programs on all inputs", "anchors": ["numga/multivector/extension/optimized.py:normalize_3dpga_motor_numpy"]}
{"id": "C79", "title": "The optimised exponentials of 3D bivectors are exponentials", "statement": "In x+y+z+w0, exp() of a translation bivector is its exponential (the value at 1 of the solution of E' = b*E, E(0) = 1), and exp() of a rotation or general bivector is its exponential if the norm of the rotation part exceeds 1e-20; otherwise no coefficient is off by more than 1e-40 times the sum of the absolute values of the coefficients of b. The exponential is unique. A general bivector with zero rotation part gives a non-finite result, although its exponential is 1 + b.", "quantifier": "all bivectors with real coefficients", "why_tests_cant": "all reals, including the neighbourhood of the threshold", "anchors": ["numga/multivector/extension/optimized.py:exponentiate_degenerate_bivector_numpy", "numga/multivector/extension/optimized.py:exponentiate_nondegenerate_bivector_numpy", "numga/multivector/extension/optimized.py:exponentiate_bivector_numpy"]}
{"id": "C80", "title": "The least-squares inverse minimises the residual, and inverts in dimension at most four", "statement": "inverse_la() of the numpy backend returns the unique y, among the multivectors of its subspace, for which the sum of the squared coefficients of x*y - 1 is least; that subspace is the least one holding ~x conj(x ~x) for every x of the subspace. It raises exactly when no blade with nonzero square is shared by the two subspaces or some nonzero candidate z has x*z == 0. The result is a two-sided inverse exactly when the candidate subspace holds an inverse; in dimension at most four this is so for every invertible x. In five dimensions it can return a non-inverse of an invertible multivector without raising.", "quantifier": "all algebras, subspaces and coefficients in an ordered field", "why_tests_cant": "optimality against all candidates, and completeness over all 65535 subspaces and all signatures of dimension four", "anchors": ["numga/backend/numpy/multivector.py:NumpyMultiVector.inverse_la"]}
{"id": "C81", "title": "inverse_square_root squares to the inverse", "statement": "Whatever s.inverse_square_root() returns, the result y has y*y*s == 1 and s*(y*y) == 1 and commutes with s, in dimension below six and for study numbers in every dimension. For a study number a + n with n*n == q it returns when a*a - q and a + sqrt(a*a - q) are positive.", "quantifier": "all signatures, all coefficients in a field, any square root function obeying the root law", "why_tests_cant": "holds for a continuum of inputs over every signature and subspace", "anchors": ["numga/multivector/extension/roots.py:scalar_inverse_square_root", "numga/multivector/extension/roots.py:default_inverse_square_root"]}
{"id": "C82", "title": "exp approximates the exponential with a known error", "statement": "In dimension below six exp_bisect(b, n) of a bivector b, the absolute values of whose coefficients sum to at most beta <= 2^n, returns a motor of unit norm whose coefficients are each within beta^3 exp(3 beta/2) / 4^n of the coefficients of the true exponential (the solution at time one of X' = b X, X(0) = 1, which always exists). Hence it converges as n grows. exp of an empty, scalar, or purely degenerate multivector is exact. The exponential of motor_log_bisect(m) is m within the same error.", "quantifier": "all signatures of dimension below six, all real bivectors, all n with 2^n >= beta", "why_tests_cant": "a bound for all inputs against a transcendental function, in all signatures", "anchors": ["numga/multivector/extension/logexp.py:default_exp", "numga/multivector/extension/logexp.py:exp_bisect", "numga/multivector/extension/logexp.py:motor_log_bisect"]}
{"id": "C83", "title": "The logarithm of the exponential of a small bivector is the bivector", "statement": "For a bivector b the absolute values of whose coefficients sum to at most 1/8, in every signature of dimension below six, exp_bisect(b, n) and then motor_log_bisect(., n) both return, and the logarithm of the exponential is b exactly, whatever the number n of bisection steps.", "quantifier": "all signatures of dimension 2 to 5, all small real bivectors, all n", "why_tests_cant": "exactness for a continuum of inputs and every number of steps, including that no step raises", "anchors": ["numga/multivector/extension/logexp.py:exp_bisect", "numga/multivector/extension/logexp.py:motor_log_bisect", "numga/multivector/extension/roots.py:motor_square_root"]}
{"id": "C84", "title": "Newton iteration for normalising motors", "statement": "One step of inverse_sandwich(s) is the Newton step for x s ~x = 1: it raises exactly if the linearised equation x s ~y + y s ~x has a nonzero kernel in the subspace of s, otherwise it returns the solution of the linearised equation; solutions are fixed points. If the absolute values of the coefficients of s - 1 sum to at most 3/5 (s self-reverse, assertion satisfied) then inverse_sandwich(s, n) returns a self-reverse x commuting with s, and each coefficient of x s x - 1 is at most 3 (3/40)^(2^(n-1)). For an even m, below six dimensions or over the whole even subspace in any dimension, the assertion is satisfied by m ~m, and normalize_motor(m, inner, outer) returns w with coefficients of w ~w - 1 at most 3 (3/40)^(2^(inner*outer-1)) whenever the non-scalar coefficients of m ~m sum to at most 3/5 of the (positive) scalar part. On other even subspaces of six dimensions the assertion can fail for every motor.", "quantifier": "all signatures and dimensions, all real motors in the stated basin, all iteration counts", "why_tests_cant": "convergence and its rate over a continuum of motors and all iteration counts", "anchors": ["numga/multivector/numerical_normalize.py:inverse_sandwich", "numga/multivector/numerical_normalize.py:normalize_motor", "numga/multivector/numerical_normalize.py:solve_newton_direct"]}
{"id": "C85", "title": "Convergence of normalize_motor below six dimensions", "statement": "Below six dimensions m ~m = a + q with q*q a scalar, for every even m. If a > 0 and q*q < a*a, normalize_motor(m) never raises, however many iterations, with or without taking out the scalar norm, and w ~w tends to 1 with the error squared at each iteration from some point on. If a > 0 and q*q >= a*a, no result after any number of iterations comes within a fixed distance of a unit motor, so the convergence promised by the docstring fails, e.g. in signature (2,2).", "quantifier": "all signatures of dimension below six, all real even multivectors with positive scalar part of m ~m, all iteration counts", "why_tests_cant": "global convergence for a continuum of inputs", "anchors": ["numga/multivector/numerical_normalize.py:normalize_motor", "numga/multivector/numerical_normalize.py:inverse_sandwich"]}
{"id": "C86", "title": "Arrays of multivectors", "statement": "Calling an operator of one to 25 inputs on arrays of multivectors raises exactly if the shapes (without the last axis) cannot be repeated to a common shape; otherwise the result has the smallest common shape and its entry at each index is the operator applied to the entries of the inputs read there. This holds for the einsum and sparse evaluation of numpy, for einsum, sparse and dense evaluation of the other backends, and for binding some of the inputs first and calling the bound operator on the rest. The dense evaluation of torch instead rejects every input of other than one multivector. sum adds the multivectors along an axis, concatenate joins two arrays and rejects different subspaces and the axis of components, x[i] takes an entry, x.at[i].set(y) replaces it and leaves the others. sum(-1) adds components, and raises unless the last axis is as long as the subspace.", "quantifier": "all signatures, all well-formed integer operators, all shapes and values over any commutative ring", "why_tests_cant": "unbounded number of axes and axis lengths, all combinations of absent and length-one axes", "anchors": ["numga/backend/numpy/operator.py:NumpyEinsumOperator", "numga/backend/numpy/operator.py:NumpySparseOperator", "numga/backend/jax/operator.py:JaxDenseOperator", "numga/backend/torch/operator.py:TorchDenseOperator", "numga/backend/numpy/operator.py:partial", "numga/backend/numpy/multivector.py:sum", "numga/backend/numpy/multivector.py:concatenate", "numga/multivector/helper.py:IndexHelper"]}
{"id": "C87", "title": "Sparse matrices of multivectors", "statement": "MatrixContainer represents a matrix over the Clifford algebra: the constructor and the first Builder of a process sum the entries given for each position, diag and from_scipy give the diagonal matrix and the matrix of scalars, +, -, negation and scaling are those of matrices whatever the subspaces, ~ is the transpose with reversed entries, dual acts entry by entry, A * B is the matrix product and A * x the matrix-vector product, and the same for wedge, inner, regressive and commutator product in place of the geometric product. Hence products are associative and ~(A*B) = ~B * ~A. Operations on shapes that do not fit raise, and so do products with a matrix that has a row without entries and products without any matching pair of entries. Builders share one list of entries.", "quantifier": "all signatures, all shapes, all subspaces, all lists of entries over any commutative ring", "why_tests_cant": "matrices of any size and sparsity pattern; correctness depends on sorting, grouping and segment sums", "anchors": ["numga/examples/ga_sparse.py:MatrixContainer", "numga/examples/ga_sparse.py:MatrixOperator", "numga/examples/ga_sparse.py:Builder"]}
{"id": "C88", "title": "Bound and flattened sparse matrices", "statement": "Binding a product to the subspace of its vectors first gives the same arrays as multiplying directly, and as_operator maps the flattened coefficients of a vector to those of the product. as_dense raises unless both subspaces have the same size, and then every block is the transpose of the matrix of the product with the entry, so that as_dense is not the matrix of as_operator.", "quantifier": "all signatures, all shapes, all subspaces, all lists of entries over any commutative ring", "why_tests_cant": "all matrices and subspaces; blocks that happen to be symmetric hide the transposition", "anchors": ["numga/examples/ga_sparse.py:BoundMatrixOperator"]}
{"id": "C89", "title": "Inverses and quotients stay in a subalgebra", "statement": "When x and y are stored in a subspace that is a subalgebra containing the scalars, so are the results of x.inverse() and x / y; in particular inverses and quotients of multivectors of even grade are of even grade.", "quantifier": "all signatures, all subalgebras containing the scalars, all multivectors stored in them over any field", "why_tests_cant": "every subalgebra of every signature; the branch taken by inverse depends on the subspace", "anchors": ["numga/multivector/extension/inverse.py", "numga/multivector/multivector.py:AbstractMultiVector.__truediv__"]}
{"id": "C90", "title": "Conformal points", "statement": "Conformal.algebra(s) adds dimensions p and n of square one and minus one to the algebra of s and is defined exactly when these names are free and there is room. ni and no are null with inner product -1. embed_point puts a point and a radius on the vectors, raises for a wrong number of coordinates, and inner products of embedded points are minus half the squared distances, corrected by the squared radii. point_position drops the two coordinates, normalize divides by minus the inner product with ni or fails when that is zero, and normalising any nonzero multiple of an embedded point gives the embedded point, whose position is the point.", "quantifier": "all descriptions (any signature of the base space), all points, radii and factors over any field of characteristic other than two", "why_tests_cant": "all dimensions, signatures, points and radii", "anchors": ["numga/examples/conformal.py:Conformal"]}
{"id": "C91", "title": "Splitting point pairs", "statement": "On the line and in the plane split_points of a bivector that is the wedge of two null vectors x, y with x.y nonzero gives -(x.ni) y and (y.ni) x, in this order if x.y is negative and exchanged if it is positive; the mixin returns the opposite order. If x.y = 0 but the wedge is not zero the division fails. For the pair of two embedded points at positive squared distance the normalised elements are the second and the first point, while the unnormalised second element has the negated position. In the conformal algebra of space split_points raises for some stored subspaces of a bivector that it splits for others.", "quantifier": "all base signatures of dimension at most two (three for the failing division), all pairs of null vectors, all storages of their wedge, over any ordered field with square roots", "why_tests_cant": "all pairs of points; the order and the signs depend on the pair", "anchors": ["numga/examples/conformal.py:Conformal.split_points", "numga/examples/conformal.py:ConformalContextMixin.split_points"]}
{"id": "C92", "title": "Order of the Runge-Kutta methods", "statement": "One step of RK1, RK4 and RK8 keeps the subspace of the state and, compared with the exact solution through the same state, has an error O(h^2), O(h^5) and O(h^4) respectively. RK8 does not reach the order of its name: for a linear right hand side its step is the exponential series with a wrong coefficient of degree four (1397/33600 instead of 1/24), and already for y' = y its error is not O(h^5).", "quantifier": "all signatures, all subspaces, all right hand sides analytic at the state, all solutions; step size tending to zero", "why_tests_cant": "an order of convergence is a statement about all small steps and all right hand sides; one wrong coefficient of a table passes any test with a tolerance", "anchors": ["numga/examples/integrators.py:RK1", "numga/examples/integrators.py:RK4", "numga/examples/integrators.py:RK8"]}
{"id": "C93", "title": "Mechanics of a rigid body made of points", "statement": "A body made by from_point_cloud starts at rest at the identity. For it and for every body obtained from it by copy: the kinetic energy is the sum over the points of the square of (point & rate); the inertia map is a symmetric form and inertia_inv is its two-sided inverse; rate_derivative solves Euler's equation I(r') + I(r) x r = forques; its power I(r') & r is the power of the forques (the gyroscopic term does no work); the momentum seen from the world, motor >> I(rate), changes exactly by motor >> forques when the motor moves with the rate. Without negative basis vectors the energy is at least zero and zero only at rest, damping takes away energy at the rate damping * |rate|^2, and from_point_cloud succeeds exactly for points that are antivectors and that are moved by every bivector.", "quantifier": "all signatures with at least two basis vectors, all numbers of points and coordinates, all rates, motors, damping and gravity, all fields", "why_tests_cant": "conservation laws and definiteness are about all motions and all bodies; a simulation only shows small drift for some", "anchors": ["numga/examples/physics/base.py:BodyBase.from_point_cloud", "numga/examples/physics/base.py:BodyBase.kinetic_energy", "numga/examples/physics/base.py:BodyBase.copy", "numga/examples/physics/core.py:Body.forques", "numga/examples/physics/core.py:Body.rate_derivative", "numga/backend/numpy/operator.py:NumpyOperator.inverse"]}
{"id": "C94", "title": "Steps of motors and integration of a body", "statement": "motor_add_step keeps a unit motor a unit motor and multiplies it from the right with 1 - step/2 up to an invertible factor that commutes with the step and is its own reverse. motor_relative_step undoes it: of the reversed motors (as post_integrate calls it) it returns the step, of the motors themselves the step in the world frame, which the new motor takes back to the step. integrate without constraints gives the body the rate of the RK4 step and, up to sign, the motor of motor_add_step with rate*dt; without negative basis vectors it always has a result and post_integrate then changes nothing, so that any number of steps can be made and the motor stays a unit motor.", "quantifier": "all signatures with 2 to 5 basis vectors (C94_add: any number), all unit even motors, all steps, all bodies made of points, all step sizes other than zero", "why_tests_cant": "drift of the motor from the unit motors and failures of the square roots depend on the state; tests only run a few trajectories", "anchors": ["numga/examples/physics/core.py:motor_add_step", "numga/examples/physics/core.py:motor_relative_step", "numga/examples/physics/core.py:Body.pre_integrate", "numga/examples/physics/core.py:Body.post_integrate", "numga/examples/physics/core.py:Body.integrate"]}
{"id": "C95", "title": "The commutator is a derivation", "statement": "b.commutator(x*y) = b.commutator(x)*y + x*b.commutator(y) for every b; for a bivector b the same rule holds for the outer, inner and scalar product and the two contractions, and the regressive product of two multivectors of complementary grades does not change to first order along b: (b x X) & Y = -(X & (b x Y)).", "quantifier": "all signatures, all subspaces, all coefficients in a field of characteristic other than two", "why_tests_cant": "an identity between composed symbolic operators over all subspaces and signatures", "anchors": ["numga/operator/factory.py:OperatorFactory.make_commutator", "numga/multivector/multivector.py:AbstractMultiVector.commutator"]}
{"id": "C96", "title": "Constraint impulses between two bodies", "statement": "distribute_forque of two bodies, two directions and a scalar magnitude solves (compliance + c0 + c1) * l = magnitude, where c = inertia_inv(d) & d is the compliance of each body in its direction, and returns the steps caused by the impulses d0*l/2 and -d1*l/2. Momentum is conserved: when the directions are one direction of the world seen from each body, the changes of the momenta seen from the world are opposite. The relative motion of the bodies along the direction is half of the magnitude for compliance zero. Without negative basis vectors it has a result exactly when not both directions and the compliance are zero.", "quantifier": "all signatures with at least two basis vectors (C96_momentum: 2 to 5), all bodies made of points, all unit motors, directions, scalar magnitudes and compliances, all fields", "why_tests_cant": "conservation and the failing inputs are about all states of two bodies; the examples only run chains that look plausible", "anchors": ["numga/examples/physics/core.py:Constraint.distribute_forque", "numga/examples/physics/base.py:ConstraintBase.__init__"]}
{"id": "C97", "title": "Constraint steps in the plane", "statement": "In the plane (three basis vectors) apply_indexed adds to the unit motors of two bodies steps whose momenta seen from the world are opposite, and returns unit motors; v_apply_indexed returns rates for which the sum of the momenta of both bodies seen from the world is that of the old rates. Without negative basis vectors over the reals apply_indexed has a result exactly when the compliance and the line joining the anchors are not both zero, and v_apply_indexed exactly when the velocities of the two anchors in the world differ.", "quantifier": "all signatures of three basis vectors that are not all null (totality: without negative ones), all bodies made of points with unit motors, all rates, all anchors and compliances the constructor accepts, all time steps that are not zero, all fields with a square root (totality: ordered fields with real roots)", "why_tests_cant": "conservation of momentum and absence of 0/0 are about all states of two bodies; the demos only show pictures", "anchors": ["numga/examples/physics/core.py:Constraint.apply_indexed", "numga/examples/physics/core.py:Constraint.v_apply_indexed", "numga/examples/physics/core.py:motor_add_step"]}
{"id": "C98", "title": "Constraint steps in space", "statement": "In space (four basis vectors) apply_indexed adds to the unit motors of two bodies steps whose momenta seen from the world are opposite, and returns unit motors; v_apply_indexed on anchors that are at the same place in the world returns rates for which the sum of the momenta of both bodies seen from the world is that of the old rates. Without negative basis vectors over the reals apply_indexed has a result exactly when the compliance and the line joining the anchors are not both zero, and v_apply_indexed on such anchors exactly when their velocities in the world differ.", "quantifier": "all signatures of four basis vectors of which at least two are not null (totality: without negative ones), all bodies made of points with unit motors, all rates, all anchors and compliances the constructor accepts, all time steps that are not zero, all fields with a square root (totality: ordered fields with real roots)", "why_tests_cant": "conservation of momentum and absence of 0/0 are about all states of two bodies; the demos only show pictures", "anchors": ["numga/examples/physics/core.py:Constraint.apply_indexed", "numga/examples/physics/core.py:Constraint.v_apply_indexed", "numga/examples/physics/core.py:motor_add_step"]}
{"id": "C99", "title": "Sets of bodies and of constraints", "statement": "Constraint.apply and v_apply on a set of constraints whose bodies are all different give every named body the motor (the rate) of its own constraint, computed from the old bodies, leave every other body as it was, and give the same result as the constraints one after the other in any order; v_apply then conserves the sum of the momenta of all bodies. When two constraints share a body there is a result all the same, the later write wins and the step of the other is lost, so the sum of the momenta is off by that step. integrate with any sets of constraints keeps every body a body of the same points with a unit motor, without constraints it steps every body for itself. The two sets of constraints of a chain have no body twice and together hold all constraints.", "quantifier": "all lists of bodies made of points with unit motors, all lists of constraints, positive and negative indices, all chains of any length, all time steps that are not zero; plane and space", "why_tests_cant": "the demos run one chain; whether a set of constraints loses steps depends on all index patterns, and conservation is about all states", "anchors": ["numga/examples/physics/core.py:Constraint.apply", "numga/examples/physics/core.py:Constraint.v_apply", "numga/examples/physics/core.py:Body.integrate", "numga/examples/physics/base.py:ConstraintBase", "numga/examples/physics/setup_chain.py:setup_bodies"]}
{"id": "C100", "title": "Lie group integrators of rigid bodies", "statement": "Every integrator of lie_integrators.py (variational_lie_verlet, explicit_lie_newmark, explicit_lie_newmark_rev, explicit_rk1, explicit_rk4) takes a unit motor and a rate to a unit motor and a rate, whatever the solver of the implicit equation returns. The two Newmark methods and the Verlet method are reversible: when the solver has found a root, the step by -dt from the result gives back the start exactly, if the solver finds the root that belongs to the start. explicit_lie_newmark and the Runge-Kutta methods turn the reversed motor by the full rate; variational_lie_verlet turns the motor by half of its rate. exp4 takes the result of log4 back to the motor.", "quantifier": "all algebras with up to five dimensions and any signature, all fields without characteristic two, all motors, rates, inertia operators, forces that depend on motor and rate, all time steps, all solvers", "why_tests_cant": "the tests plot a few trajectories and compare drifts by eye; unit motors and exact reversibility hold for all states, forces and solvers", "anchors": ["numga/examples/physics/lie_integrators.py:variational_lie_verlet", "numga/examples/physics/lie_integrators.py:explicit_lie_newmark", "numga/examples/physics/lie_integrators.py:explicit_lie_newmark_rev", "numga/examples/physics/lie_integrators.py:explicit_rk1", "numga/examples/physics/lie_integrators.py:explicit_rk4", "numga/examples/physics/lie_integrators.py:exp2"]}
{"id": "C101", "title": "The Newton solver of the integrators", "statement": "newton_solver with a regular Jacobian stays at a root for any number of iterations; where a step stays there is a root; linear equations are solved by the first iteration from any start and stay solved; for a function that is its linearisation plus Q the residual after an iteration is exactly Q of the step. The implicit equation of the Newmark methods with a force that does not depend on the rate has such a Jacobian, and what is left of it after an iteration is -(dt/2) inertia_inv(inertia(d).commutator(d)) of the step d.", "quantifier": "all functions of vectors of any length over any field, all starts, all numbers of iterations; all inertia operators, states and time steps for the Newmark equation", "why_tests_cant": "the tests run three iterations on one body and never look at the residual", "anchors": ["numga/examples/physics/lie_integrators.py:newton_solver", "numga/examples/physics/lie_integrators.py:explicit_lie_newmark"]}
{"id": "C102", "title": "Inertia of solid simplices", "statement": "simplex_inertia with any weights gives the sum of the inertia operators of point masses: each row of weights is one point, placed at the combination of the corners, with the combined mass. The weights of simplex_inertia_weights add up to 1/N in every row and every column, so total mass and centre of mass are those of the simplex, and their second moments are those of a uniform density. simplex_inertia_lumped therefore is the inertia of the solid simplex: the momentum of every rate is the mean over the simplex, with uniform density, of the momentum of the point mass at each of its points.", "quantifier": "all numbers of corners, all corners of mass one in every algebra whose norm of points is their mass (all projective algebras, of any dimension), all rates, all weights", "why_tests_cant": "the test compares with a sampled sum for single simplices of three dimensions up to a tolerance; the comment in the code says tested for n = 2, 3, 4", "anchors": ["numga/examples/test_simplex.py:simplex_inertia", "numga/examples/test_simplex.py:simplex_inertia_weights", "numga/examples/test_simplex.py:simplex_inertia_lumped"]}
{"id": "C103", "title": "Motions of the plane", "statement": "In examples/pga2d.py, translator, rotor, point and plane represent the translations, rotations, points and lines of the Euclidean plane: translations compose by adding vectors and move points by their vector, rotations compose by adding angles and turn points about the origin from x to y, a line and a point wedge to d - n.p, and two lines wedge to a multiple of the point they share. transform_points returns the coordinates of the point the sandwich gives, for every motor. The exp registered by the module is the exponential of bivectors with an xy part, and exp of a multiple of a point turns the plane about that point by twice the multiple. Importing the module also replaces exp for all other bivectors of algebras of at most three dimensions: without an xy part it then raises, and for boosts it gives nan, although exp handles both without the module. In algebras of more than three dimensions exp stays as it was.", "quantifier": "all vectors, angles, points and lines over every field with 2 != 0 (angles over the reals), all even elements of any layout, all bivectors", "why_tests_cant": "the only test prints a few values; that the signs of the matrix agree with the sandwich is a polynomial identity in all motors and points", "anchors": ["numga/examples/pga2d.py:point", "numga/examples/pga2d.py:translator", "numga/examples/pga2d.py:rotor", "numga/examples/pga2d.py:transform_points", "numga/examples/pga2d.py:exponentiate_bivector_numpy"]}
{"id": "C104", "title": "The chain of bodies", "statement": "In examples/physics/setup_chain.py, for an algebra whose last basis vector is its only null vector: translator(v) is the motor of unit norm that moves the point at u to the point at u + v, translators compose by adding vectors, and point_embed(v) is the point at v in every dimension. setup_bodies returns the number of bodies asked for; body i stands at i times the distance along the last axis, at rest and not rotated, with its centre of mass at the origin of its frame, the given damping and gravity along the first axis. Neighbours are joined by one constraint each, whose two anchors are at the same point halfway between the bodies, split in two sets in which no body occurs twice. Fixing changes only the first body, and of it only the map from forces to rates, which then gives no translation. The set-up succeeds for every positive number of bodies and every size but zero when no axis is negative, and raises for size zero.", "quantifier": "all algebras with one null vector in last place and any number of axes, all fields without characteristic two (ordered fields for success), all numbers of bodies, distances, compliances, sizes and dampings", "why_tests_cant": "the examples draw two set-ups in two and three dimensions; that the chain is closed at the start holds for every dimension, number of bodies and distance", "anchors": ["numga/examples/physics/setup_chain.py:translator", "numga/examples/physics/setup_chain.py:point_embed", "numga/examples/physics/setup_chain.py:make_cube", "numga/examples/physics/setup_chain.py:setup_bodies"]}
{"id": "C105", "title": "The tennis racket theorem", "statement": "In examples/tennis_racket_theorem.py, for every Euclidean space of two or more dimensions: make_point_cloud gives the 2^n points that are duals of the vectors with coordinates ±1, ±2, .. ±n; a body is made from it for every plane of axes, with the unit spin in that plane plus the jitter as its rate. The inertia of such a body is diagonal with the moment 2^n((i+1)²+(k+1)²) in the plane of the axes i and k, its kinetic energy is the sum of the moments times the squares of the components, and rate_derivative solves the Euler equations of a free top of that dimension (gravity has no effect). Without damping a rate is steady if and only if the square of its matrix is diagonal, in particular for a spin in one plane, and then integrate keeps it exactly. The loop can be run for any number of steps in two to five dimensions with unit motors. In three dimensions the exact motion never turns over about the axis of the smallest or the largest moment, while there are motions, disturbed by as little as one likes, that turn over about the middle axis.", "quantifier": "all Euclidean algebras, all fields without characteristic two (ordered fields for success), all jitters, rates, dampings, step sizes other than zero and numbers of steps; all real solution curves", "why_tests_cant": "the example plots three bodies for one seed of the jitter; stability concerns all later times, instability all sizes of the disturbance", "anchors": ["numga/examples/tennis_racket_theorem.py:make_n_cube", "numga/examples/tennis_racket_theorem.py:make_n_rect", "numga/examples/tennis_racket_theorem.py:make_point_cloud", "numga/examples/physics/core.py:rate_derivative"]}
{"id": "C106", "title": "Falling bodies and the loops of the chain examples", "statement": "In a flat space (one null basis vector, no negative ones, two to five dimensions) a body of unit points whose centre of mass is the origin of its frame, translated and moving along the direction of gravity, falls straight when integrated without constraints: it never turns, its rate after a step is the Taylor polynomial of order four of the solution of c' = -g - (damping/mass) c, it is translated by that rate, and a damped body stays at the terminal rate -g mass/damping. Undamped bodies fall together, whatever their masses and points: after n steps of length dt the rate is less by g n dt and the displacement is g dt² n(n+1)/2 - n dt c. The bodies set up by setup_bodies without fixing are of this kind, and keep their distances. step of run_chain_numpy.py and run_chain_jax.py advances the time by dt for every unroll other than zero; that of run_chain_torch.py advances it by 10 dt/unroll. The main loop makes as many calls of step as asked for, keeps the state after the first and after every tenth further call, and all states consist of bodies of the same points with unit motors, with any sets of constraints.", "quantifier": "all such algebras, ordered fields with roots, point clouds, masses, gravities, dampings, step sizes other than zero, numbers of steps and of bodies", "why_tests_cant": "the examples run for one set-up and are judged by looking at the animation; that a fall is straight and independent of the mass concerns all clouds, positions and numbers of steps", "anchors": ["numga/examples/physics/run_chain_numpy.py:step", "numga/examples/physics/run_chain_torch.py:step", "numga/examples/physics/core.py:integrate", "numga/examples/physics/core.py:rate_derivative", "numga/examples/physics/setup_chain.py:setup_bodies"]}
{"id": "C107", "title": "A chain whose joints hold cannot be stepped", "statement": "In exact arithmetic, in the flat plane and in flat space of three dimensions: apply_indexed of a constraint whose two anchors are at the same place keeps both motors up to their signs. Bodies that fall side by side, with the same speed and the same ratio of damping to mass, can not be integrated with sets of constraints all of which are satisfied, if the first set is not empty: after the position steps, which change nothing, the anchors have equal velocities, and v_apply divides zero by zero. So integrate, step and the main loops of the examples have no result (nan) for the chain set up by setup_bodies with at least two bodies, and for the fixed one with at least six.", "quantifier": "all flat algebras of three and four dimensions without negative basis vectors, ordered fields with roots, point clouds, dampings, compliances, numbers of bodies, of steps, and step sizes other than zero", "why_tests_cant": "in floating point the rounding of the motors usually makes the velocities differ by a few ulps, so that a run shows numbers, whose size is that of the rounding errors divided by each other", "anchors": ["numga/examples/physics/core.py:v_apply_indexed", "numga/examples/physics/core.py:apply_indexed", "numga/examples/physics/core.py:integrate", "numga/examples/physics/setup_chain.py:setup_bodies", "numga/examples/physics/run_chain_jax.py:step"]}
{"id": "C108", "title": "Random vectors, reflections and motors of the test helpers", "statement": "A random_nonnegative_normal_vector squares to a number that is not negative for all draws in exactly the algebras without negative basis vectors and those with one negative and some positive basis vector. A random_positive_normal_vector squares to at least the margin, and without positive basis vectors it never returns. A random_reflection is a vector that squares to one; it is returned exactly if the vector it starts from has a positive square. random_n_reflection is a product of n such vectors. random_motor returns exactly if all its reflections do; the result is even, and it is zero or has a positive scalar part, satisfies M ~M = ~M M = 1 and keeps grades under the sandwich, so that motor_violations of it are zero. motor_violations of any multivector are M ~M - 1 and the part of M v ~M that is not a vector. check_inverse passes exactly if no coefficient of x i - 1 and i x - 1 exceeds the tolerance. random_non_motor is the 2^n-th power of one plus a small even multivector.", "quantifier": "all algebras with a basis vector that is not null, ordered fields with roots, draws, margins, tolerances and numbers of reflections", "why_tests_cant": "the helpers are what the tests sample with: whether every draw gives a motor, for which signatures the docstrings hold, and that the checks accept exactly the right values is assumed by them, and the draws that give zero have probability zero", "anchors": ["numga/multivector/test/util.py:random_nonnegative_normal_vector", "numga/multivector/test/util.py:random_positive_normal_vector", "numga/multivector/test/util.py:random_reflection", "numga/multivector/test/util.py:random_motor", "numga/multivector/test/util.py:motor_violations", "numga/multivector/test/util.py:check_inverse"]}
