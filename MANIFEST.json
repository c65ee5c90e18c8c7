{
 "claims": [
  {
   "property": "C01",
   "status": "proved",
   "theorems": [
    "Verif.Props.C01_bit_count",
    "Verif.Props.C01_grade",
    "Verif.Props.C01_bit_dot"
   ],
   "note": ""
  },
  {
   "property": "C02",
   "status": "proved",
   "theorems": [
    "Verif.Props.C02_product_is_clifford",
    "Verif.Props.C02_sign_unique",
    "Verif.Props.C02_zero_iff"
   ],
   "note": ""
  },
  {
   "property": "C03",
   "status": "proved",
   "theorems": [
    "Verif.Props.C03_associative",
    "Verif.Props.C03_unit"
   ],
   "note": ""
  },
  {
   "property": "C04",
   "status": "proved",
   "theorems": [
    "Verif.Props.C04_values",
    "Verif.Props.C04_involutive",
    "Verif.Props.C04_products",
    "Verif.Props.C04_reverse_sign",
    "Verif.Props.C04_involute_sign"
   ],
   "note": ""
  },
  {
   "property": "C05",
   "status": "proved",
   "theorems": [
    "Verif.Props.C05_pseudoscalar_squared"
   ],
   "note": ""
  },
  {
   "property": "C06",
   "status": "proved",
   "theorems": [
    "Verif.Props.C06_accepts",
    "Verif.Props.C06_parsed",
    "Verif.Props.C06_round_trip"
   ],
   "note": ""
  },
  {
   "property": "C07",
   "status": "proved",
   "theorems": [
    "Verif.Props.C07_from_pqr",
    "Verif.Props.C07_truncates"
   ],
   "note": ""
  },
  {
   "property": "C08",
   "status": "proved",
   "theorems": [
    "Verif.Props.C08_constructible",
    "Verif.Props.C08_dtype"
   ],
   "note": ""
  },
  {
   "property": "C09",
   "status": "proved",
   "theorems": [
    "Verif.Props.C09_mul",
    "Verif.Props.C09_products"
   ],
   "note": ""
  },
  {
   "property": "C10",
   "status": "proved",
   "theorems": [
    "Verif.Props.C10_parse_tokens",
    "Verif.Props.C10_parse_sound"
   ],
   "note": ""
  },
  {
   "property": "C100",
   "status": "proved",
   "theorems": [
    "Verif.Props.C100_unit",
    "Verif.Props.C100_newmark",
    "Verif.Props.C100_newmark_rev",
    "Verif.Props.C100_verlet",
    "Verif.Props.C100_rk",
    "Verif.Props.C100_speed_verlet",
    "Verif.Props.C100_speed_newmark",
    "Verif.Props.C100_log4"
   ],
   "note": "the solver is a parameter; reversibility is stated for solvers that return roots"
  },
  {
   "property": "C101",
   "status": "proved",
   "theorems": [
    "Verif.Props.C101_root",
    "Verif.Props.C101_fixed",
    "Verif.Props.C101_step",
    "Verif.Props.C101_linear",
    "Verif.Props.newmark_jacobian",
    "Verif.Props.C101_newmark"
   ],
   "note": "jacobian is a parameter, automatic differentiation is not modelled; the residual is stated for forces that do not depend on the rate"
  },
  {
   "property": "C102",
   "status": "proved",
   "theorems": [
    "Verif.Props.C102_inertia",
    "Verif.Props.C102_weights",
    "Verif.Props.C102_lumped",
    "Verif.Props.pga_points",
    "Verif.Props.simplexMean_one"
   ],
   "note": "the integral is the iterated interval integral of Mathlib; corners over the reals; exact square roots"
  },
  {
   "property": "C103",
   "status": "proved",
   "theorems": [
    "Verif.Props.C103_values",
    "Verif.Props.C103_translations",
    "Verif.Props.C103_rotor",
    "Verif.Props.C103_rotations",
    "Verif.Props.C103_incidence",
    "Verif.Props.C103_crossing",
    "Verif.Props.C103_transform",
    "Verif.Props.C103_exp",
    "Verif.Props.C103_about",
    "Verif.Props.C103_wrong",
    "Verif.Props.C103_boost",
    "Verif.Props.C103_elsewhere"
   ],
   "note": "the defects of the registered exp are C103_wrong and C103_boost; exact arithmetic, sin and cos of Mathlib"
  },
  {
   "property": "C104",
   "status": "proved",
   "theorems": [
    "Verif.Props.C104_translator",
    "Verif.Props.C104_compose",
    "Verif.Props.C104_point",
    "Verif.Props.C104_move",
    "Verif.Props.C104_rest",
    "Verif.Props.C104_chain",
    "Verif.Props.C104_moving",
    "Verif.Props.C104_fixing",
    "Verif.Props.C104_total",
    "Verif.Props.C104_size"
   ],
   "note": "exact arithmetic; the inverse of the inertia operator is that of the model (C93); the copies of make_n are a list of bodies"
  },
  {
   "property": "C105",
   "status": "proved",
   "theorems": [
    "Verif.Props.C105_cloud",
    "Verif.Props.C105_bodies",
    "Verif.Props.C105_inertia",
    "Verif.Props.C105_energy",
    "Verif.Props.C105_positive",
    "Verif.Props.C105_euler",
    "Verif.Props.C105_steady",
    "Verif.Props.C105_plane",
    "Verif.Props.C105_keeps",
    "Verif.Props.C105_simulate",
    "Verif.Props.C105_space",
    "Verif.Props.C105_conserved",
    "Verif.Props.C105_stable",
    "Verif.Props.C105_turns_over"
   ],
   "note": "exact arithmetic; a batch of bodies is a list; stability and instability are stated for the exact solutions of the differential equation that rate_derivative gives, not for its Runge-Kutta steps; the branch that is switched off and the plots are not modelled"
  },
  {
   "property": "C106",
   "status": "proved",
   "theorems": [
    "Verif.Props.C106_fall",
    "Verif.Props.C106_terminal",
    "Verif.Props.C106_free",
    "Verif.Props.C106_ready",
    "Verif.Props.C106_chain",
    "Verif.Props.C106_step",
    "Verif.Props.C106_stepTorch",
    "Verif.Props.C106_run",
    "Verif.Props.C106_run_plane",
    "Verif.Props.C106_run_space"
   ],
   "note": "exact arithmetic; motors are given up to their sign; jax.lax.fori_loop is a loop; timing, printing and rendering are not modelled"
  },
  {
   "property": "C107",
   "status": "proved",
   "theorems": [
    "Verif.Props.C107_idle",
    "Verif.Props.C107_free",
    "Verif.Props.C107_chain",
    "Verif.Props.C107_run"
   ],
   "note": "exact arithmetic; a defect: constraints that are satisfied should change nothing"
  },
  {
   "property": "C108",
   "status": "proved",
   "theorems": [
    "Verif.Props.C108_nonnegative_iff",
    "Verif.Props.C108_positive",
    "Verif.Props.C108_positive_iff",
    "Verif.Props.C108_positive_never",
    "Verif.Props.C108_reflection",
    "Verif.Props.C108_reflection_total",
    "Verif.Props.C108_nreflection",
    "Verif.Props.C108_motor",
    "Verif.Props.C108_motor_total",
    "Verif.Props.C108_motor_passes",
    "Verif.Props.C108_violations",
    "Verif.Props.C108_check",
    "Verif.Props.C108_check_exact",
    "Verif.Props.C108_nonmotor"
   ],
   "note": "the docstring of random_nonnegative_normal_vector is wrong for other signatures, which the equivalence states"
  },
  {
   "property": "C11",
   "status": "proved",
   "theorems": [
    "Verif.Props.C11_identity",
    "Verif.Props.C11_stable"
   ],
   "note": "pool as a state machine over arbitrary histories of from_blades calls"
  },
  {
   "property": "C12",
   "status": "proved",
   "theorems": [
    "Verif.Props.C12_from_blades"
   ],
   "note": ""
  },
  {
   "property": "C13",
   "status": "proved",
   "theorems": [
    "Verif.Props.C13_set_algebra"
   ],
   "note": ""
  },
  {
   "property": "C14",
   "status": "proved",
   "theorems": [
    "Verif.Props.C14_from_grades",
    "Verif.Props.C14_out_of_range",
    "Verif.Props.C14_named"
   ],
   "note": ""
  },
  {
   "property": "C15",
   "status": "proved",
   "theorems": [
    "Verif.Props.C15_relative_indices",
    "Verif.Props.C15_index_of_get",
    "Verif.Props.C15_slice"
   ],
   "note": ""
  },
  {
   "property": "C16",
   "status": "proved",
   "theorems": [
    "Verif.Props.C16_complement",
    "Verif.Props.C16_union"
   ],
   "note": ""
  },
  {
   "property": "C17",
   "status": "proved",
   "theorems": [
    "Verif.Props.C17_split",
    "Verif.Props.C17_multivector"
   ],
   "note": ""
  },
  {
   "property": "C18",
   "status": "proved",
   "theorems": [
    "Verif.Props.C18_bit_str"
   ],
   "note": "strings after splitting at commas"
  },
  {
   "property": "C19",
   "status": "proved",
   "theorems": [
    "Verif.Props.C19_attr",
    "Verif.Props.C19_unknown",
    "Verif.Props.C19_repeated_letter"
   ],
   "note": "holds for distinct letters; the repeated-letter case is a proved counterexample to naive reading"
  },
  {
   "property": "C20",
   "status": "proved",
   "theorems": [
    "Verif.Props.C20_is_subalgebra",
    "Verif.Props.C20_minimal"
   ],
   "note": "Loop modelled with fuel; terminates for every fuel above 2^n with a fuel-independent result."
  },
  {
   "property": "C21",
   "status": "proved",
   "theorems": [
    "Verif.Props.C21_fuse"
   ],
   "note": ""
  },
  {
   "property": "C22",
   "status": "proved",
   "theorems": [
    "Verif.Props.C22_bind"
   ],
   "note": ""
  },
  {
   "property": "C23",
   "status": "proved",
   "theorems": [
    "Verif.Props.C23_squeeze"
   ],
   "note": ""
  },
  {
   "property": "C24",
   "status": "proved",
   "theorems": [
    "Verif.Props.C24_symmetry",
    "Verif.Props.C24_exact_invariant"
   ],
   "note": ""
  },
  {
   "property": "C25",
   "status": "proved",
   "theorems": [
    "Verif.Props.C25_select",
    "Verif.Props.C25_restrict",
    "Verif.Props.C25_grades"
   ],
   "note": ""
  },
  {
   "property": "C26",
   "status": "proved",
   "theorems": [
    "Verif.Props.C26_slice_axes",
    "Verif.Props.C26_slice",
    "Verif.Props.C26_deslice",
    "Verif.Props.C26_deslice_raises"
   ],
   "note": "slice and deslice of any well-formed operator; deslice to spaces outside the algebra's blades raises"
  },
  {
   "property": "C27",
   "status": "proved",
   "theorems": [
    "Verif.Props.C27_kernel",
    "Verif.Props.C27_transform",
    "Verif.Props.C27_store",
    "Verif.Props.C27_fuse8",
    "Verif.Props.C27_symmetry8",
    "Verif.Props.C27_add8",
    "Verif.Props.C27_squeeze8"
   ],
   "note": "All factory functions and operator methods, nested arbitrarily (inductive predicate Built); int8 arithmetic modelled as 8-bit vectors and shown to agree with exact integers, symmetry up to five axes. Weights chosen by the caller of diagonal, mul/div by other numbers and sum are outside."
  },
  {
   "property": "C28",
   "status": "proved",
   "theorems": [
    "Verif.Props.C28_product",
    "Verif.Props.C28_storage",
    "Verif.Props.C28_assoc"
   ],
   "note": ""
  },
  {
   "property": "C29",
   "status": "proved",
   "theorems": [
    "Verif.Props.C29_wedge",
    "Verif.Props.C29_faithful",
    "Verif.Props.C29_assoc",
    "Verif.Props.C29_vector"
   ],
   "note": ""
  },
  {
   "property": "C30",
   "status": "proved",
   "theorems": [
    "Verif.Props.C30_graded"
   ],
   "note": "the bivector product needs dimension at least two (the grade-2 subspace does not exist otherwise)"
  },
  {
   "property": "C31",
   "status": "proved",
   "theorems": [
    "Verif.Props.C31_split",
    "Verif.Props.C31_inner_doubles"
   ],
   "note": "second theorem: the same split with the symmetric inner product fails for scalars"
  },
  {
   "property": "C32",
   "status": "proved",
   "theorems": [
    "Verif.Props.C32_inverse",
    "Verif.Props.C32_blades"
   ],
   "note": ""
  },
  {
   "property": "C33",
   "status": "proved",
   "theorems": [
    "Verif.Props.C33_dual",
    "Verif.Props.C33_assoc",
    "Verif.Props.C33_bilinear",
    "Verif.Props.C33_unit"
   ],
   "note": ""
  },
  {
   "property": "C34",
   "status": "proved",
   "theorems": [
    "Verif.Props.C34_complements",
    "Verif.Props.C34_value",
    "Verif.Props.C34_faithful",
    "Verif.Props.C34_odd",
    "Verif.Props.C34_even"
   ],
   "note": ""
  },
  {
   "property": "C35",
   "status": "proved",
   "theorems": [
    "Verif.Props.C35_half",
    "Verif.Props.C35_sum",
    "Verif.Props.C35_jacobi",
    "Verif.Props.C35_bivector"
   ],
   "note": ""
  },
  {
   "property": "C36",
   "status": "proved",
   "theorems": [
    "Verif.Props.C36_full",
    "Verif.Props.C36_grades",
    "Verif.Props.C36_versor"
   ],
   "note": ""
  },
  {
   "property": "C37",
   "status": "proved",
   "theorems": [
    "Verif.Props.C37_mod4"
   ],
   "note": ""
  },
  {
   "property": "C38",
   "status": "proved",
   "theorems": [
    "Verif.Props.C38_values",
    "Verif.Props.C38_agree",
    "Verif.Props.C38_grades"
   ],
   "note": ""
  },
  {
   "property": "C39",
   "status": "proved",
   "theorems": [
    "Verif.Props.C39_one",
    "Verif.Props.C39_least",
    "Verif.Props.C39_n_simple",
    "Verif.Props.C39_simplicity",
    "Verif.Props.C39_study"
   ],
   "note": "One-step predicates decided exactly (if and only if); the n-step predicate is sound by construction, and its converse is not claimed."
  },
  {
   "property": "C40",
   "status": "proved",
   "theorems": [
    "Verif.Props.C40_agree",
    "Verif.Props.C40_nullary",
    "Verif.Props.C40_missing_argument"
   ],
   "note": "einsum, numpy-sparse, jax/torch-sparse and dense execution agree with the contraction of the kernel, for arity 1..25; the exceptions (no inputs; missing arguments) are proved as negative results"
  },
  {
   "property": "C41",
   "status": "proved",
   "theorems": [
    "Verif.Props.C41_python",
    "Verif.Props.C41_agree_iff",
    "Verif.Props.C41_disagree"
   ],
   "note": "exact characterisation of where the python backend differs, with witness"
  },
  {
   "property": "C42",
   "status": "proved",
   "theorems": [
    "Verif.Props.C42_partial",
    "Verif.Props.C42_mixed",
    "Verif.Props.C42_sandwich_map",
    "Verif.Props.C42_inertia_map"
   ],
   "note": "any nonempty set of positions, any order of the dict; fully bound operators cannot be called (proved)"
  },
  {
   "property": "C43",
   "status": "proved",
   "theorems": [
    "Verif.Props.C43_multilinear"
   ],
   "note": "linear in each argument, all operators, all commutative rings"
  },
  {
   "property": "C44",
   "status": "proved",
   "theorems": [
    "Verif.Props.C44_sum",
    "Verif.Props.C44_numbers",
    "Verif.Props.C44_neg"
   ],
   "note": ""
  },
  {
   "property": "C45",
   "status": "proved",
   "theorems": [
    "Verif.Props.C45_default",
    "Verif.Props.C45_unit"
   ],
   "note": ""
  },
  {
   "property": "C46",
   "status": "proved",
   "theorems": [
    "Verif.Props.C46_named",
    "Verif.Props.C46_prefix"
   ],
   "note": "for basis names none of which begins with another; witness that such names are misparsed otherwise"
  },
  {
   "property": "C47",
   "status": "proved",
   "theorems": [
    "Verif.Props.C47_inverse",
    "Verif.Props.C47_dispatch",
    "Verif.Props.C47_complete",
    "Verif.Props.C47_simple",
    "Verif.Props.C47_empty",
    "Verif.Props.C47_dim6"
   ],
   "note": "exact fields of characteristic other than 2; division by zero is an explicit failure; in dimension at most 4 it occurs exactly for non-invertible elements"
  },
  {
   "property": "C48",
   "status": "proved",
   "theorems": [
    "Verif.Props.C48_hitzer",
    "Verif.Props.C48_value",
    "Verif.Props.C48_dim4"
   ],
   "note": "also: it divides by zero exactly for non-invertible elements; the value returned in every dimension; witness that four dimensions are not enough"
  },
  {
   "property": "C49",
   "status": "proved",
   "theorems": [
    "Verif.Props.C49_quotient",
    "Verif.Props.C49_scalar",
    "Verif.Props.C49_div",
    "Verif.Props.C49_rdiv"
   ],
   "note": ""
  },
  {
   "property": "C50",
   "status": "proved",
   "theorems": [
    "Verif.Props.C50_square_root",
    "Verif.Props.C50_nan",
    "Verif.Props.C50_silent",
    "Verif.Props.C50_nan_null",
    "Verif.Props.C50_no_match"
   ],
   "note": "square root squares to x under the stated sign condition; the other cases (nan, silent zero, no implementation) are proved too, so the condition is sharp"
  },
  {
   "property": "C51",
   "status": "proved",
   "theorems": [
    "Verif.Props.C51_square_root",
    "Verif.Props.C51_geometric_mean",
    "Verif.Props.C51_exists"
   ],
   "note": "any returned root squares to m and is normalised; existence in dimension below six"
  },
  {
   "property": "C52",
   "status": "proved",
   "theorems": [
    "Verif.Props.C52_linear",
    "Verif.Props.C52_linear_normalized",
    "Verif.Props.C52_cayley_log",
    "Verif.Props.C52_cayley_exp",
    "Verif.Props.C52_bisect",
    "Verif.Props.C52_unit"
   ],
   "note": "exact field arithmetic; both directions for the Cayley pair in dimension below six; for the bisection pair exp(log) = identity (log(exp) is not exact for large arguments)"
  },
  {
   "property": "C53",
   "status": "proved",
   "theorems": [
    "Verif.Props.C53_degenerate",
    "Verif.Props.C53_two_null",
    "Verif.Props.C53_default",
    "Verif.Props.C53_vector",
    "Verif.Props.C53_translator",
    "Verif.Props.C53_translator_negative"
   ],
   "note": "includes the proved failures for two null vectors, for vectors and for translators with scalar -1"
  },
  {
   "property": "C54",
   "status": "proved",
   "theorems": [
    "Verif.Props.C54_first",
    "Verif.Props.C54_frozen",
    "Verif.Props.C54_options",
    "Verif.Props.C54_dispatch",
    "Verif.Props.C54_late"
   ],
   "note": "all histories of registrations and calls; conditions may raise"
  },
  {
   "property": "C55",
   "status": "proved",
   "theorems": [
    "Verif.Props.C55_transparent",
    "Verif.Props.C55_same_object",
    "Verif.Props.C55_immutable",
    "Verif.Props.C55_collision"
   ],
   "note": "all histories; needs types that print differently (witness of the collision otherwise)"
  },
  {
   "property": "C56",
   "status": "proved",
   "theorems": [
    "Verif.Props.C56_unchanged",
    "Verif.Props.C56_set",
    "Verif.Props.C56_alias"
   ],
   "note": "all histories of constructing, viewing, updating and operators on numpy arrays; aliasing of user arrays shown by witness"
  },
  {
   "property": "C57",
   "status": "proved",
   "theorems": [
    "Verif.Props.C57_parity",
    "Verif.Props.C57_even",
    "Verif.Props.C57_reflection",
    "Verif.Props.C57_reflection_all"
   ],
   "note": "Also: every product of k vectors lies in k_reflection(k)."
  },
  {
   "property": "C58",
   "status": "partial",
   "theorems": [
    "Verif.Props.C58_transform_partial",
    "Verif.Props.C58_even_partial",
    "Verif.Props.C58_raises",
    "Verif.Props.C58_outermorphism",
    "Verif.Props.C58_wrong"
   ],
   "note": "the code violates the property: proved where v is homogeneous or R even, and sizes agree; C58_raises and C58_wrong show failures elsewhere"
  },
  {
   "property": "C59",
   "status": "proved",
   "theorems": [
    "Verif.Props.C59_inverse",
    "Verif.Props.C59_complete",
    "Verif.Props.C59_dim0"
   ],
   "note": "Every dimension and signature, degenerate ones included, over any field of characteristic zero: the result is the two-sided inverse, and exists exactly if x is invertible. In the algebra without generators the method raises."
  },
  {
   "property": "C60",
   "status": "proved",
   "theorems": [
    "Verif.Props.C60_minimal",
    "Verif.Props.C60_powers"
   ],
   "note": "Loop modelled with fuel."
  },
  {
   "property": "C61",
   "status": "proved",
   "theorems": [
    "Verif.Props.C61_spaces",
    "Verif.Props.C61_closed",
    "Verif.Props.C61_ideal",
    "Verif.Props.C61_translator",
    "Verif.Props.C61_translator_closed",
    "Verif.Props.C61_predicates"
   ],
   "note": ""
  },
  {
   "property": "C62",
   "status": "proved",
   "theorems": [
    "Verif.Props.C62_natural",
    "Verif.Props.C62_batch"
   ],
   "note": "broadcast axes as coefficients in a ring of functions"
  },
  {
   "property": "C63",
   "status": "proved",
   "theorems": [
    "Verif.Props.C63_normalized",
    "Verif.Props.C63_direction",
    "Verif.Props.C63_exists"
   ],
   "note": ""
  },
  {
   "property": "C64",
   "status": "proved",
   "theorems": [
    "Verif.Props.C64_values",
    "Verif.Props.C64_calls",
    "Verif.Props.C64_negations",
    "Verif.Props.C64_self"
   ],
   "note": ""
  },
  {
   "property": "C65",
   "status": "proved",
   "theorems": [
    "Verif.Props.C65_anti",
    "Verif.Props.C65_commutators",
    "Verif.Props.C65_assoc",
    "Verif.Props.C65_even"
   ],
   "note": "C65_even: not associative in even dimensions, the elements of the witness included"
  },
  {
   "property": "C66",
   "status": "proved",
   "theorems": [
    "Verif.Props.C66_dual",
    "Verif.Props.C66_euclidean"
   ],
   "note": ""
  },
  {
   "property": "C67",
   "status": "proved",
   "theorems": [
    "Verif.Props.C67_norm_squared",
    "Verif.Props.C67_scalar",
    "Verif.Props.C67_value",
    "Verif.Props.C67_study",
    "Verif.Props.C67_no_match"
   ],
   "note": "root functions are parameters assumed exact (RealRoots, AbsLaw), as in C28"
  },
  {
   "property": "C68",
   "status": "proved",
   "theorems": [
    "Verif.Props.C68_multivector",
    "Verif.Props.C68_blade",
    "Verif.Props.C68_k_vector",
    "Verif.Props.C68_even_grade"
   ],
   "note": ""
  },
  {
   "property": "C69",
   "status": "proved",
   "theorems": [
    "Verif.Props.C69_grade",
    "Verif.Props.C69_out_of_range"
   ],
   "note": ""
  },
  {
   "property": "C70",
   "status": "proved",
   "theorems": [
    "Verif.Props.C70_wedge",
    "Verif.Props.C70_inner",
    "Verif.Props.C70_reject",
    "Verif.Props.C70_scalar_degenerate",
    "Verif.Props.C70_grade",
    "Verif.Props.C70_len"
   ],
   "note": ""
  },
  {
   "property": "C71",
   "status": "proved",
   "theorems": [
    "Verif.Props.C71_add",
    "Verif.Props.C71_sub",
    "Verif.Props.C71_mul",
    "Verif.Props.C71_sum"
   ],
   "note": "div and add_broadcast are not modelled (add_broadcast always raises)"
  },
  {
   "property": "C72",
   "status": "proved",
   "theorems": [
    "Verif.Props.C72_cubed",
    "Verif.Props.C72_inverse_factors",
    "Verif.Props.C72_compose",
    "Verif.Props.C72_alt"
   ],
   "note": ""
  },
  {
   "property": "C73",
   "status": "proved",
   "theorems": [
    "Verif.Props.C73_select",
    "Verif.Props.C73_select_grade",
    "Verif.Props.C73_euclidian",
    "Verif.Props.C73_solve",
    "Verif.Props.C73_small"
   ],
   "note": "C73_small: solve can exclude the only solution (finding)"
  },
  {
   "property": "C74",
   "status": "proved",
   "theorems": [
    "Verif.Props.C74_cube",
    "Verif.Props.C74_decompose",
    "Verif.Props.C74_returns",
    "Verif.Props.C74_noMatch",
    "Verif.Props.C74_isoclinic"
   ],
   "note": "isoclinic bivectors divide by zero (finding)"
  },
  {
   "property": "C75",
   "status": "proved",
   "theorems": [
    "Verif.Props.C75_parts",
    "Verif.Props.C75_product",
    "Verif.Props.C75_odd",
    "Verif.Props.C75_wrong",
    "Verif.Props.C75_rotor",
    "Verif.Props.C75_noMatch"
   ],
   "note": "with an odd number of negative basis vectors the translator has the wrong sign (finding)"
  },
  {
   "property": "C76",
   "status": "proved",
   "theorems": [
    "Verif.Props.C76_split",
    "Verif.Props.keepsGrade",
    "Verif.Props.C76_euclidian",
    "Verif.Props.C76_noMatch"
   ],
   "note": "returned values only; when the square root exists is left to C51"
  },
  {
   "property": "C77",
   "status": "proved",
   "theorems": [
    "Verif.Props.C77_label",
    "Verif.Props.C77_blade",
    "Verif.Props.C77_unique",
    "Verif.Props.C77_ambiguous"
   ],
   "note": "names that are not prefix-free are ambiguous (witness C77_ambiguous)"
  },
  {
   "property": "C78",
   "status": "proved",
   "theorems": [
    "Verif.Props.C78_condition",
    "Verif.Props.C78_unit",
    "Verif.Props.C78_same",
    "Verif.Props.C78_agree"
   ],
   "note": "exact arithmetic; value arrays of floats (integer arrays would fail in the in-place update)"
  },
  {
   "property": "C79",
   "status": "proved",
   "theorems": [
    "Verif.Props.C79_translation",
    "Verif.Props.C79_rotation",
    "Verif.Props.C79_bivector",
    "Verif.Props.C79_unique"
   ],
   "note": "exact real arithmetic; pure translations in the full bivector layout give nan (finding)"
  },
  {
   "property": "C80",
   "status": "proved",
   "theorems": [
    "Verif.Props.C80_least",
    "Verif.Props.C80_returns",
    "Verif.Props.C80_exact",
    "Verif.Props.C80_inverse",
    "Verif.Props.C80_dim5"
   ],
   "note": "exact arithmetic; np.linalg.solve modelled by Cramer's rule, a singular matrix raises"
  },
  {
   "property": "C81",
   "status": "proved",
   "theorems": [
    "Verif.Props.C81_root",
    "Verif.Props.C81_exists"
   ],
   "note": "exact arithmetic; square roots of scalars obey the root law of Model/Roots"
  },
  {
   "property": "C82",
   "status": "proved",
   "theorems": [
    "Verif.Props.C82_exists",
    "Verif.Props.C82_bisect",
    "Verif.Props.C82_limit",
    "Verif.Props.C82_log",
    "Verif.Props.C82_exact",
    "Verif.Props.C82_exp"
   ],
   "note": "real arithmetic without rounding; np.exp on scalars is Real.exp"
  },
  {
   "property": "C83",
   "status": "proved",
   "theorems": [
    "Verif.Props.C83_log_exp"
   ],
   "note": "real arithmetic without rounding"
  },
  {
   "property": "C84",
   "status": "proved",
   "theorems": [
    "Verif.Props.C84_step",
    "Verif.Props.C84_fixed",
    "Verif.Props.C84_converges",
    "Verif.Props.C84_domain",
    "Verif.Props.C84_normalize",
    "Verif.Props.C84_normalize_raw",
    "Verif.Props.C84_raises"
   ],
   "note": "exact arithmetic, np.linalg.solve raises exactly on singular matrices; convergence over the reals"
  },
  {
   "property": "C85",
   "status": "proved",
   "theorems": [
    "Verif.Props.C85_split",
    "Verif.Props.C85_converges",
    "Verif.Props.C85_stuck",
    "Verif.Props.C85_stuck_witness"
   ],
   "note": "real arithmetic without rounding; the docstring's claim of convergence is refuted by C85_stuck_witness, the exact condition is proved"
  },
  {
   "property": "C86",
   "status": "proved",
   "theorems": [
    "Verif.Props.C86_shapes",
    "Verif.Props.C86_calls",
    "Verif.Props.C86_raises",
    "Verif.Props.C86_bind",
    "Verif.Props.C86_torch_dense",
    "Verif.Props.C86_torch_dense_axes",
    "Verif.Props.C86_sum",
    "Verif.Props.C86_sum_last",
    "Verif.Props.C86_concat",
    "Verif.Props.C86_concat_raises",
    "Verif.Props.C86_index",
    "Verif.Props.C86_set",
    "Verif.Props.C86_sum_silent",
    "Verif.Props.C86_set_unchecked"
   ],
   "note": "reshape, einsum with ellipsis and broadcasting follow numpy's documented semantics; indices and axes of concatenate nonnegative"
  },
  {
   "property": "C87",
   "status": "proved",
   "theorems": [
    "Verif.Props.C87_construct",
    "Verif.Props.C87_diag",
    "Verif.Props.C87_scipy",
    "Verif.Props.C87_builder",
    "Verif.Props.C87_builder_raises",
    "Verif.Props.C87_sum",
    "Verif.Props.C87_sum_raises",
    "Verif.Props.C87_scale",
    "Verif.Props.C87_reverse",
    "Verif.Props.C87_matmat",
    "Verif.Props.C87_matmat_raises",
    "Verif.Props.C87_product",
    "Verif.Props.C87_matvec",
    "Verif.Props.C87_kinds",
    "Verif.Props.C87_assoc",
    "Verif.Props.C87_adjoint",
    "Verif.Props.C87_shared",
    "Verif.Props.C87_empty"
   ],
   "note": "numpy_indexed.group_by, np.add.reduceat and fancy indexing follow their documented semantics"
  },
  {
   "property": "C88",
   "status": "proved",
   "theorems": [
    "Verif.Props.C88_bound",
    "Verif.Props.C88_operator",
    "Verif.Props.C88_dense",
    "Verif.Props.C88_dense_wrong"
   ],
   "note": "as_operator for arrays with one axis"
  },
  {
   "property": "C89",
   "status": "proved",
   "theorems": [
    "Verif.Props.C89_inverse",
    "Verif.Props.C89_divide",
    "Verif.Props.C89_even"
   ],
   "note": ""
  },
  {
   "property": "C90",
   "status": "proved",
   "theorems": [
    "Verif.Props.C90_algebra",
    "Verif.Props.C90_null",
    "Verif.Props.C90_embed",
    "Verif.Props.C90_distance",
    "Verif.Props.C90_position",
    "Verif.Props.C90_normalize",
    "Verif.Props.C90_roundtrip"
   ],
   "note": ""
  },
  {
   "property": "C91",
   "status": "proved",
   "theorems": [
    "Verif.Props.C91_split",
    "Verif.Props.C91_degenerate",
    "Verif.Props.C91_points",
    "Verif.Props.C91_space_fails"
   ],
   "note": "the bound on the dimension is needed: C91_space_fails"
  },
  {
   "property": "C92",
   "status": "proved",
   "theorems": [
    "Verif.Props.C92_rk1",
    "Verif.Props.C92_rk4",
    "Verif.Props.C92_rk8",
    "Verif.Props.C92_rk8_linear",
    "Verif.Props.C92_rk8_order"
   ],
   "note": "RK8 is of order three only, C92_rk8_order is the negation of order four; with -231 in place of -234 in k_8 the order conditions hold"
  },
  {
   "property": "C93",
   "status": "proved",
   "theorems": [
    "Verif.Props.C93_rest",
    "Verif.Props.C93_energy",
    "Verif.Props.C93_symmetric",
    "Verif.Props.C93_inverse",
    "Verif.Props.C93_euler",
    "Verif.Props.C93_power",
    "Verif.Props.C93_balance",
    "Verif.Props.C93_positive",
    "Verif.Props.C93_damping",
    "Verif.Props.C93_exists"
   ],
   "note": "one body; batches of bodies and their slicing are not modelled. The comment in kinetic_energy asks for a factor -1/2; C93_positive shows the sign is already right"
  },
  {
   "property": "C94",
   "status": "proved",
   "theorems": [
    "Verif.Props.C94_add",
    "Verif.Props.C94_local",
    "Verif.Props.C94_world",
    "Verif.Props.C94_integrate",
    "Verif.Props.C94_total",
    "Verif.Props.C94_run"
   ],
   "note": "one body, no constraints in integrate (the empty constraint set)"
  },
  {
   "property": "C95",
   "status": "proved",
   "theorems": [
    "Verif.Props.C95_product",
    "Verif.Props.C95_graded",
    "Verif.Props.C95_regressive"
   ],
   "note": ""
  },
  {
   "property": "C96",
   "status": "proved",
   "theorems": [
    "Verif.Props.C96_distribute",
    "Verif.Props.C96_half",
    "Verif.Props.C96_momentum",
    "Verif.Props.C96_total"
   ],
   "note": "one constraint between two bodies, scalar magnitude"
  },
  {
   "property": "C97",
   "status": "proved",
   "theorems": [
    "Verif.Props.C97_velocity",
    "Verif.Props.C97_position",
    "Verif.Props.C97_velocity_total",
    "Verif.Props.C97_position_total"
   ],
   "note": "one constraint between two bodies, three basis vectors"
  },
  {
   "property": "C98",
   "status": "proved",
   "theorems": [
    "Verif.Props.C98_velocity",
    "Verif.Props.C98_position",
    "Verif.Props.C98_velocity_total",
    "Verif.Props.C98_position_total"
   ],
   "note": "one constraint between two bodies, four basis vectors; the velocity step for anchors that coincide in the world, as a satisfied constraint has them"
  },
  {
   "property": "C99",
   "status": "proved",
   "theorems": [
    "Verif.Props.C99_apply",
    "Verif.Props.C99_vApply",
    "Verif.Props.C99_order",
    "Verif.Props.C99_shared",
    "Verif.Props.C99_momentum_plane",
    "Verif.Props.C99_momentum_space",
    "Verif.Props.C99_lost",
    "Verif.Props.C99_total",
    "Verif.Props.C99_free",
    "Verif.Props.C99_integrate_plane",
    "Verif.Props.C99_integrate_space",
    "Verif.Props.C99_chain",
    "Verif.Props.C99_take"
   ],
   "note": "the loss of a step of two constraints that share a body is proved for v_apply; totality for the plane; momenta in space for anchors that coincide in the world"
  }
 ]
}