{
 "claims": [
  {
   "property": "C01",
   "status": "proved",
   "theorems": [
    "WG.c01_evaluation_meaning",
    "WG.c01_meaning_unique",
    "WG.c01_eval_to",
    "WG.c01_total"
   ],
   "note": "Every expression of the surface language that has a meaning elaborates, evaluates and yields that meaning; the meaning is unique; every well-kinded expression outside the exp/log/normalise exceptional arguments has one. A dynamic node has a meaning if what it wraps can be wrapped (C63)."
  },
  {
   "property": "C02",
   "status": "proved",
   "theorems": [
    "WG.c02_assoc",
    "WG.c02_inverse",
    "WG.c02_inverse_mul",
    "WG.c02_identity",
    "WG.c02_closed",
    "WG.c02_valid",
    "WG.c02_quaternion_exact"
   ],
   "note": ""
  },
  {
   "property": "C03",
   "status": "proved",
   "theorems": [
    "WG.c03_action",
    "WG.c03_inverse",
    "WG.c03_dot",
    "WG.c03_norm",
    "WG.c03_linear",
    "WG.c03_representation"
   ],
   "note": ""
  },
  {
   "property": "C04",
   "status": "proved",
   "theorems": [
    "WG.c04_assoc",
    "WG.c04_inverse",
    "WG.c04_identity",
    "WG.c04_action",
    "WG.c04_undo",
    "WG.c04_isometry",
    "WG.c04_parts"
   ],
   "note": ""
  },
  {
   "property": "C05",
   "status": "partial",
   "theorems": [
    "WG.c05_step",
    "WG.c05_steps",
    "WG.c05_bottom_row_partial",
    "WG.c05_blocks_independent",
    "WG.c05_false",
    "WG.c05_matrix_constructor"
   ],
   "note": "The last row stays (0,0,0,1) and the blocks are independent for every history of default/parts/expression construction and (part) assignment; false for construction from an arbitrary 4x4 matrix, from uninitialised storage (c05_false, c05_matrix_constructor)."
  },
  {
   "property": "C06",
   "status": "proved",
   "theorems": [
    "WG.c06_formula",
    "WG.c06_axis_angle",
    "WG.c06_zero",
    "WG.c06_neg",
    "WG.c06_add"
   ],
   "note": ""
  },
  {
   "property": "C07",
   "status": "partial",
   "theorems": [
    "WG.c07_third_order_partial",
    "WG.c07_fourth_order_false",
    "WG.c07_small_not_unit"
   ],
   "note": "Third-order bound proved; the fourth-order claim is false because of a sign slip in the small-angle branch (negation proved)."
  },
  {
   "property": "C08",
   "status": "partial",
   "theorems": [
    "WG.c08_log_exp",
    "WG.c08_exp_log_partial",
    "WG.c08_half_turn_fails",
    "WG.c08_half_turn_floating",
    "WG.c08_log_length"
   ],
   "note": "Fails at half-turns (negation proved)."
  },
  {
   "property": "C09",
   "status": "proved",
   "theorems": [
    "WG.c09_log_exp",
    "WG.c09_exp_log",
    "WG.c09_small_twist_not_rigid"
   ],
   "note": ""
  },
  {
   "property": "C10",
   "status": "proved",
   "theorems": [
    "WG.c10_rot_plus_minus",
    "WG.c10_rot_minus_plus",
    "WG.c10_rigid_plus_minus",
    "WG.c10_rigid_minus_plus",
    "WG.c10_vec",
    "WG.c10_point"
   ],
   "note": ""
  },
  {
   "property": "C11",
   "status": "partial",
   "theorems": [
    "WG.c11_refl",
    "WG.c11_rot_symm",
    "WG.c11_rigid_symm_partial",
    "WG.c11_rot_close_partial",
    "WG.c11_rigid_close_partial",
    "WG.c11_angle_exceeds_prec",
    "WG.c11_half_turn_floating",
    "WG.c11_rigid_not_symm",
    "WG.c11_rot_of_close",
    "WG.c11_rot_near_partial",
    "WG.c11_rigid_near_partial",
    "WG.c11_rot_half_turn",
    "WG.c11_rot_iff",
    "WG.c11_rigid_iff"
   ],
   "note": "Reflexive; symmetric on rotations; closeness up to a factor sqrt 3 in the regular region and pi/2 sqrt 3 everywhere; conversely relative angle at most prec (and not a half-turn) is accepted; exact coordinate condition in the regular region; negations proved for the rest."
  },
  {
   "property": "C12",
   "status": "proved",
   "theorems": [
    "WG.c12_additive",
    "WG.c12_scaling",
    "WG.c12_division",
    "WG.c12_inner",
    "WG.c12_cauchy_schwarz",
    "WG.c12_normalize",
    "WG.c12_normalize_zero",
    "WG.c12_division_by_zero",
    "WG.c12_scalar_norms_rejected"
   ],
   "note": "Norms, normalisation and the inner product are for vectors: applied to a Scalar they do not compile (c12_scalar_norms_rejected), since their bodies call Eigen members on a number."
  },
  {
   "property": "C13",
   "status": "proved",
   "theorems": [
    "WG.c13_affine",
    "WG.c13_difference_zero"
   ],
   "note": ""
  },
  {
   "property": "C14",
   "status": "proved",
   "theorems": [
    "WG.c14_jacobian_is_derivative",
    "WG.c14_dynamic_jacobian_is_derivative",
    "WG.c14_expression",
    "WG.c14_expression_dynamic",
    "WG.c14_finite"
   ],
   "note": "For every expression tree (and every user expression with a meaning) at a regular point the Jacobian returned is the Fréchet derivative at zero of the box-difference; c14_finite shows it is finite away from the listed singular arguments."
  },
  {
   "property": "C15",
   "status": "proved",
   "theorems": [
    "WG.c15_unary_velocity",
    "WG.c15_binary_velocity",
    "WG.c15_unary",
    "WG.c15_binary_left",
    "WG.c15_binary_right",
    "WG.c15_unary_finite",
    "WG.c15_boxplus_rotation",
    "WG.c15_boxplus_rigid",
    "WG.c15_boxminus_rotation",
    "WG.c15_boxminus_rigid"
   ],
   "note": "All operators of the model, by cases on the operator inside the proof; box operators for every pair of storage classes."
  },
  {
   "property": "C16",
   "status": "partial",
   "theorems": [
    "WG.c16_finite_iff",
    "WG.c16_dynamic_finite_iff",
    "WG.c16_finite_derivative",
    "WG.c16_boxplus_zero_twist",
    "WG.c16_exp_rotation_partial",
    "WG.c16_log_rotation_not_finite",
    "WG.c16_log_rigid_not_finite",
    "WG.c16_exp_twist_not_finite",
    "WG.c16_boxminus_rotation_not_finite",
    "WG.c16_boxminus_rigid_not_finite"
   ],
   "note": "The claim is false of the code: at the identity the Jacobians of log, box-minus and exp of twists are 0/0, proved for every expression and target. c16_finite_iff gives the exact set of points (for every expression, memory and object written in it) at which the Jacobian is finite; there it is the derivative. True part of the claim itself: exp of relative rotations."
  },
  {
   "property": "C17",
   "status": "proved",
   "theorems": [
    "WG.c17_reverse_eq_forward"
   ],
   "note": ""
  },
  {
   "property": "C18",
   "status": "proved",
   "theorems": [
    "WG.c18_typed_eq_address"
   ],
   "note": ""
  },
  {
   "property": "C19",
   "status": "partial",
   "theorems": [
    "WG.c19_absent_forward",
    "WG.c19_absent_partial",
    "WG.c19_debug",
    "WG.c19_release_wrong_object"
   ],
   "note": "False in release builds for trees with unique leaf types containing another object of the type (c19_release_wrong_object); debug builds abort instead."
  },
  {
   "property": "C20",
   "status": "proved",
   "theorems": [
    "WG.c20_sum_over_occurrences",
    "WG.c20_sum_with_dynamic_nodes",
    "WG.c20_auto"
   ],
   "note": ""
  },
  {
   "property": "C21",
   "status": "proved",
   "theorems": [
    "WG.c21_dynamic_forward",
    "WG.c21_dynamic_reverse",
    "WG.c21_reverse_eq_forward",
    "WG.c21_shared_address"
   ],
   "note": "Requires the address of an object to identify it; c21_shared_address shows this is needed."
  },
  {
   "property": "C22",
   "status": "proved",
   "theorems": [
    "WG.c22_eval_with_jacobians",
    "WG.c22_accepted"
   ],
   "note": ""
  },
  {
   "property": "C23",
   "status": "proved",
   "theorems": [
    "WG.c23_value_representation_independent",
    "WG.c23_jacobian_representation_independent",
    "WG.c23_dynamic_jacobian_representation_independent"
   ],
   "note": "For every expression with a meaning (arguments of exp and log outside the small-angle series, where exp returns a non-unit quaternion)."
  },
  {
   "property": "C24",
   "status": "partial",
   "theorems": [
    "WG.c24_value",
    "WG.c24_stacked_unique",
    "WG.c24_dynamic_partial",
    "WG.c24_dynamic_undefined",
    "WG.c24_static_partial",
    "WG.c24_static_accepted",
    "WG.c24_static_undefined",
    "WG.c24_static_wrong_rows",
    "WG.c24_static_rejected",
    "WG.c24_unique_rejected",
    "WG.c24_evalWithJacobians_partial",
    "WG.c24_evalWithJacobians_rejected",
    "WG.c24_undefined",
    "WG.c24_false",
    "WG.c24_child_indices",
    "WG.c24_unevaluated",
    "WG.c24_scalars"
   ],
   "note": "The value of a compound is the compound of the element values, or the call is rejected by the compiler because an element's result is an unevaluated Eigen expression. evaluateDynamicJacobian returns the stack for every compound in which no Jacobian overload on the way to the target reads such a result; otherwise it reads destroyed objects, since the n-ary evaluator moves its child evaluators. jacobian(x) returns the stack when in addition the elements containing the type of x come first; it puts rows in the wrong place (c24_false) or is rejected otherwise, and is rejected when all leaf types are distinct. c24_unevaluated: exactly which operations of the library return unevaluated results; compounds of scalar expressions never read a destroyed object (c24_scalars)."
  },
  {
   "property": "C25",
   "status": "proved",
   "theorems": [
    "WG.c25_affine_exact",
    "WG.c25_converges",
    "WG.c25_one_class"
   ],
   "note": "Exact for every non-zero step on affine expressions between flat classes; converges at every regular point where the analytic Jacobian is finite."
  },
  {
   "property": "C26",
   "status": "proved",
   "theorems": [
    "WG.c26_accumulate",
    "WG.c26_missing",
    "WG.c26_touch_inserts"
   ],
   "note": "c26_touch_inserts: reading a missing key through operator[] inserts an empty block, so count changes."
  },
  {
   "property": "C27",
   "status": "partial",
   "theorems": [
    "WG.c27_isSame",
    "WG.c27_isSame_partial",
    "WG.c27_sound",
    "WG.c27_false",
    "WG.c27_equivalence",
    "WG.c27_containsSame"
   ],
   "note": "False of the code as stated: isSame compares C++ types, which record how operands were passed, so -p (with p = -v named) and -(-v) are not 'the same' (c27_false). Proved: isSame holds exactly for the same structure, objects and forms (c27_isSame); no false positives (c27_sound); equivalence relation; containsSame exact."
  },
  {
   "property": "C28",
   "status": "partial",
   "theorems": [
    "WG.c28_partial",
    "WG.c28_scaling",
    "WG.c28_exp_log",
    "WG.c28_log_minus_conflict",
    "WG.c28_translation_of_rotation",
    "WG.c28_translation_of_rotation_false"
   ],
   "note": "Holds for every accepted expression whose nodes satisfy Careful (no exp/log/box/scaling of framed operands, T*v only for position vectors, translation() of a rotation only if its two frames are the same, casts only remove frames). False otherwise: scaling keeps labels, exp(log X) is labelled (A,A), the translation of a rotation R_ab is zero but labelled as the vector from a to b, and log X and X-X have the same labels but different values, so no reading of the labels makes the claim true."
  },
  {
   "property": "C29",
   "status": "proved",
   "theorems": [
    "WG.c29_sum_labels",
    "WG.c29_difference_labels",
    "WG.c29_sum",
    "WG.c29_difference",
    "WG.c29_compose_labels",
    "WG.c29_compose_rotations",
    "WG.c29_compose_motions",
    "WG.c29_rotate_labels",
    "WG.c29_rotate",
    "WG.c29_transform_labels",
    "WG.c29_transform"
   ],
   "note": "For all labels: accepted iff the chain / inner-frame condition holds; for distinct frames additionally accepted iff some labels name the result in all arrangements (Transform: every nameable product is accepted)."
  },
  {
   "property": "C30",
   "status": "partial",
   "theorems": [
    "WG.c30_partial",
    "WG.c30_other_origin"
   ],
   "note": "r must be expressed in B, and for r measured from B the result is the position of the point from A. But r measured from any D is accepted and labelled as a position from A, which is right only for D = B (negation proved)."
  },
  {
   "property": "C31",
   "status": "proved",
   "theorems": [
    "WG.c31_values",
    "WG.c31_unframed_value",
    "WG.c31_jacobians",
    "WG.c31_dynamic_jacobians"
   ],
   "note": "Two accepted expressions with the same unframed reading have equal classes, values and Jacobians (static and dynamic evaluators)."
  },
  {
   "property": "C32",
   "status": "partial",
   "theorems": [
    "WG.c32_minus",
    "WG.c32_plus_minus",
    "WG.c32_partial",
    "WG.c32_exp_log_labels",
    "WG.c32_exp_log_fails",
    "WG.c32_plus"
   ],
   "note": "X-Y accepted iff labels equal; Y+(X-Y) accepted with the labels of X. exp(log X) carries (A,A), so the last claim is false unless A = B (negation proved)."
  },
  {
   "property": "C33",
   "status": "proved",
   "theorems": [
    "WG.c33_none_needed",
    "WG.c33_right_first",
    "WG.c33_left_second",
    "WG.c33_both_last",
    "WG.c33_rejected_iff",
    "WG.c33_unary",
    "WG.c33_library_accepts"
   ],
   "note": "Search order of the conversion search and its rejections."
  },
  {
   "property": "C34",
   "status": "proved",
   "theorems": [
    "WG.c34_conversion_preserves",
    "WG.c34_rigid_conversion_preserves",
    "WG.c34_matrix_round_trip",
    "WG.c34_quaternion_round_trip"
   ],
   "note": ""
  },
  {
   "property": "C35",
   "status": "partial",
   "theorems": [
    "WG.c35_proxy_value",
    "WG.c35_transparent",
    "WG.c35_static_rejected",
    "WG.c35_wrapping_rejected"
   ],
   "note": "Values and dynamic Jacobians: any wrapping the compiler accepts (C63 says which). The static evaluator rejects binary operations with a proxy operand (c35_static_rejected), and wrapping itself is rejected for some expressions (c35_wrapping_rejected)."
  },
  {
   "property": "C36",
   "status": "proved",
   "theorems": [
    "WG.c36_eval",
    "WG.c36_jacobian",
    "WG.c36_dynJacobian",
    "WG.c36_dynReverse",
    "WG.c36_cache_is_stale"
   ],
   "note": "Nodes with their cached evaluators as mutable state; arbitrary initial caches and arbitrary histories (leaf assignments, nodes made, copied with their caches, rebound, destroyed, evaluations and all kinds of Jacobian requests). c36_cache_is_stale records that the private dynJacobian alone would answer from the stale cache: the result rests on every public call evaluating first."
  },
  {
   "property": "C37",
   "status": "proved",
   "theorems": [
    "WG.c37_rebind",
    "WG.c37_denotes",
    "WG.c37_copy",
    "WG.c37_documentation"
   ],
   "note": "Every reachable state, Proxy and RefProxy; the assigned expression moves nothing (std::move(q) empties q). The documentation's example claims the opposite of what the code does (c37_documentation). Heap nodes are never freed in the model."
  },
  {
   "property": "C38",
   "status": "partial",
   "theorems": [
    "WG.c38_auto_partial",
    "WG.c38_program_partial",
    "WG.c38_evaluable_partial",
    "WG.c38_false",
    "WG.c38_ref_false"
   ],
   "note": "Holds when no operand is a temporary of const-qualified type and ref() is applied to variables; false otherwise (c38_false, c38_ref_false)."
  },
  {
   "property": "C39",
   "status": "partial",
   "theorems": [
    "WG.c39_later_partial",
    "WG.c39_variable_partial",
    "WG.c39_copy",
    "WG.c39_only_named_partial",
    "WG.c38_false"
   ],
   "note": "Same restriction as C38 (a temporary of const type is not a snapshot, c38_false), and no Proxy holder is both moved and mentioned in one expression."
  },
  {
   "property": "C40",
   "status": "proved",
   "theorems": [
    "WG.c40_assign",
    "WG.c40_assign_rotation",
    "WG.c40_assign_translation",
    "WG.c40_assign_accepted",
    "WG.c40_rotation_accepted",
    "WG.c40_translation_accepted",
    "WG.c40_compact_rejected",
    "WG.c40_assign_meaning"
   ],
   "note": "Assignment of an expression to a leaf or to the rotation/translation block, including aliasing. Whole-object assignment of an expression to a CompactRigidTransform is rejected by the compiler (c40_compact_rejected)."
  },
  {
   "property": "C41",
   "status": "proved",
   "theorems": [
    "WG.c41_dense",
    "WG.c41_products",
    "WG.c41_identity",
    "WG.c41_uncross",
    "WG.c41_stale"
   ],
   "note": "c41_stale: a stored cross matrix desynchronises when its vector changes or it is scaled in place."
  },
  {
   "property": "C42",
   "status": "proved",
   "theorems": [
    "WG.c42_unique",
    "WG.c42_dynamic",
    "WG.c42_nary",
    "WG.c42_nary_rejected"
   ],
   "note": "Compounds of three or more elements with a repeated leaf type in one of the first are rejected by the compiler (c42_nary_rejected)."
  },
  {
   "property": "C43",
   "status": "proved",
   "theorems": [
    "WG.c43_consecutive",
    "WG.c43_every_row_once",
    "WG.c43_inside"
   ],
   "note": "Row blocks of a BlockMatrix, for every list of element sizes."
  },
  {
   "property": "C44",
   "status": "proved",
   "theorems": [
    "WG.c44_random_rotation",
    "WG.c44_random_rigid"
   ],
   "note": ""
  },
  {
   "property": "C45",
   "status": "proved",
   "theorems": [
    "WG.c45_full",
    "WG.c45_full_finite_iff",
    "WG.c45_solver_independent",
    "WG.c45_diagonal",
    "WG.c45_temporary_rejected",
    "WG.c45_asymmetric_not_whitened",
    "WG.solver_exists"
   ],
   "note": "The eigenvalue solver is any function returning an orthogonal diagonalisation of the symmetric matrix read from the lower triangle. The inverse square root does not depend on the solver."
  },
  {
   "property": "C46",
   "status": "partial",
   "theorems": [
    "WG.c46_residual",
    "WG.stackedDifference_unique",
    "WG.c46_same_residual",
    "WG.c46_single_accepted",
    "WG.c46_jacobian_partial",
    "WG.c46_jacobian_iff",
    "WG.c46_false",
    "WG.c46_compound_limit",
    "WG.c46_undefined",
    "WG.c46_accepted_iff",
    "WG.c46_distance",
    "WG.c46_compound_accepted",
    "WG.c46_range_bearing",
    "WG.c46_range_bearing_jacobians"
   ],
   "note": "Residuals: full. Jacobians: the code returns the unwhitened J; the derivative of the residual is W J (c46_jacobian_partial), so the returned matrix is right exactly when W J = J (c46_jacobian_iff); c46_false is a witness. For compound measurements whose elements hold unevaluated results the call is rejected or reads destroyed objects (c46_compound_limit, c46_undefined). c46_accepted_iff: exactly which factors compile (one vector, scalar or point, or a compound of those); c46_distance is the distance factor of the repository's tests. The repository's range-bearing test factor: residual for every pose and landmark, Jacobians up to whitening."
  },
  {
   "property": "C47",
   "status": "proved",
   "theorems": [
    "WG.c47_plus_minus",
    "WG.c47_minus_plus",
    "WG.c47_rows",
    "WG.c47_minus_elementwise",
    "WG.c47_surplus_ignored",
    "WG.c47_vectors"
   ],
   "note": "Element-wise box operators on compounds and their stacked vector form; the round trip holds whenever it holds for the elements (C10)."
  },
  {
   "property": "C48",
   "status": "partial",
   "theorems": [
    "WG.c48_false",
    "WG.c48_race",
    "WG.c48_apart_partial",
    "WG.c48_disjoint_partial"
   ],
   "note": "False of the code: for every pair of expressions that share a dynamic node some schedule reads an evaluator the other thread has destroyed (c48_false), and a data race exists exactly when a node is shared (c48_race). Proved for schedules in which calls on one node do not overlap, and for all schedules when no node is shared. Missing: nothing more is true; Jacobian calls and any number of threads: C69."
  },
  {
   "property": "C49",
   "status": "partial",
   "theorems": [
    "WG.c49_value_partial",
    "WG.c49_eval_to_partial",
    "WG.c49_scaled_zero_undefined",
    "WG.c49_zero_plus_zero_point",
    "WG.c49_composite_identity_rejected",
    "WG.c49_zero_scalar_rejected",
    "WG.c49_times_zero_scalar_undefined",
    "WG.c49_zero_scalar_accepted",
    "WG.c49_false"
   ],
   "note": "Proved for every expression with a meaning except the forms listed in Spec.form. False of the code for the excluded forms: Zero<Scalar> has a 1x1 matrix for a value, so that most operations with it do not compile and vector * Zero<Scalar> is undefined behaviour, scaling a Zero is undefined behaviour, Zero vector + Zero point has class Zero<Translation>, rotation()/translation() of a composite identity do not compile. A dynamic node around an expression with Identity or Zero in it is excluded as well."
  },
  {
   "property": "C50",
   "status": "partial",
   "theorems": [
    "WG.c50_jacobian_partial",
    "WG.c50_dynamic_partial",
    "WG.c50_identity_times_vector",
    "WG.c50_exists_iff",
    "WG.c50_dynamic_exists_iff",
    "WG.c50_unblocked_derivative"
   ],
   "note": "A Jacobian that compiles and is finite is the derivative. False of the code that it always compiles: Identity * v has no right Jacobian (c50_identity_times_vector). c50_exists_iff: at points where the expression with ordinary objects is differentiable, this is the only form in which it does not exist."
  },
  {
   "property": "C51",
   "status": "proved",
   "theorems": [
    "WG.c51_unaffected"
   ],
   "note": "Overload resolution with the full overload lists agrees with the direct tables on ordinary classes, for every expression, value and (static) Jacobian."
  },
  {
   "property": "C52",
   "status": "proved",
   "theorems": [
    "WG.c52_value",
    "WG.c52_dynamic",
    "WG.c52_static",
    "WG.c52_isolated",
    "WG.c52_moved",
    "WG.c52_reads_unary",
    "WG.c52_reads_left",
    "WG.c52_reads_right",
    "WG.c52_reads_unary_needed",
    "WG.c52_reads_left_needed",
    "WG.c52_reads_right_needed"
   ],
   "note": "Evaluators whose members refer to results stored in their child evaluators (Minus, Scale, ScaleR, ScaleDiv, inverse of a matrix rotation, frame_cast of these). The evaluator returned by prepareEvaluatorTo is taken to be constructed in place (copy elision, permitted and not required by C++14); c52_moved states what happens when an evaluator is moved. The table of arguments read is exact: an argument is listed exactly if the Jacobian depends on it."
  },
  {
   "property": "C53",
   "status": "proved",
   "theorems": [
    "WG.c53_same_jacobian",
    "WG.c53_same_dynamic",
    "WG.c53_derivative",
    "WG.c53_exp_zero_twist"
   ],
   "note": "Jacobians with respect to ordinary objects and with respect to the Identity and Zero objects themselves, jacobian(x) and evaluateDynamicJacobian. The two lists of objects must have the target at the same positions (hal). exp(Zero<Twist>) has the true derivative where the Jacobian of exp of an ordinary zero twist is not finite."
  },
  {
   "property": "C54",
   "status": "proved",
   "theorems": [
    "WG.c54_vec",
    "WG.c54_point",
    "WG.c54_refl",
    "WG.c54_symm",
    "WG.c54_mixed_rejected",
    "WG.c54_point_vec_rejected",
    "WG.c54_against_zero",
    "WG.c54_scale",
    "WG.c54_lengths",
    "WG.c54_difference",
    "WG.c54_isZero",
    "WG.c54_isZero_point",
    "WG.c54_negative",
    "WG.c54_compound",
    "WG.c54_compound_accepted",
    "WG.c54_compound_stacked",
    "WG.c54_compound_not_stacked",
    "WG.c54_point_origin"
   ],
   "note": "Full statement. Beyond it: a negative precision is treated differently by the vector and scalar overloads (c54_negative); the outcome for points depends on the origin (c54_point_origin)."
  },
  {
   "property": "C55",
   "status": "proved",
   "theorems": [
    "WG.c55_stacks",
    "WG.c55_affine_exact",
    "WG.c55_converges",
    "WG.c55_same_address",
    "WG.c55_exposes"
   ],
   "note": "Real-number model. c55_same_address: isSame compares addresses only, so a compound at the address of one of its elements gives a wrong numerical Jacobian for every step. c55_exposes: for the compound whose jacobian() has misplaced rows (C24) the numerical Jacobian has them in the right place."
  },
  {
   "property": "C56",
   "status": "proved",
   "theorems": [
    "WG.c56_write",
    "WG.c56_overwrite",
    "WG.c56_size_iff",
    "WG.c56_step",
    "WG.c56_residual",
    "WG.c56_rotation_broken",
    "WG.c56_rigid_broken_iff"
   ],
   "note": "The derivative of the residual is C46; that the Jacobians returned by evaluateWithJacobians are not it, is C46 too."
  },
  {
   "property": "C57",
   "status": "proved",
   "theorems": [
    "WG.c57_parts",
    "WG.c57_action",
    "WG.c57_rotation_same",
    "WG.c57_translation_no_jacobian"
   ],
   "note": "The Jacobian of translation() of a rotation does not compile (colsWrt<1>() of a matrix with one block); modelled as an error of every Jacobian call."
  },
  {
   "property": "C58",
   "status": "proved",
   "theorems": [
    "WG.c58_assign",
    "WG.c58_accepted",
    "WG.c58_const_rejected",
    "WG.c58_meaning",
    "WG.c58_others",
    "WG.c58_copy_iff",
    "WG.c58_copy_construct",
    "WG.c58_jacobian",
    "WG.c58_copy_overlap",
    "WG.c58_jacobian_shared"
   ],
   "note": "Leaves over raw cells; the order of coefficient loads and stores is a parameter (any schedule). c58_copy_overlap and c58_jacobian_shared are witnesses for what overlapping objects do."
  },
  {
   "property": "C59",
   "status": "proved",
   "theorems": [
    "WG.c59_parts",
    "WG.c59_live",
    "WG.c59_construct",
    "WG.c59_documentation",
    "WG.c59_assign_rotation",
    "WG.c59_assign_translation",
    "WG.c59_const_rejected",
    "WG.c59_jacobian_zero",
    "WG.c59_jacobian_missed",
    "WG.c59_swap"
   ],
   "note": "Parts are blocks of the cells of the twist. c59_jacobian_missed is the witness that the zero Jacobian misses a dependence; c59_documentation: the class comment has the parts in the other order."
  },
  {
   "property": "C60",
   "status": "proved",
   "theorems": [
    "WG.c60_error",
    "WG.c60_stored",
    "WG.c60_meaning",
    "WG.c60_outcome",
    "WG.c60_exact",
    "WG.c60_moves",
    "WG.c60_chain_mat",
    "WG.c60_chain_quat",
    "WG.c60_million",
    "WG.c60_not_associative"
   ],
   "note": "Roundings are any function with relative error at most u that commutes with negation (no overflow or underflow); IEEE rounding with ties to even is an instance (ieee p). Sums of products may be evaluated in any order and bracketing, with or without fused multiply-adds. Divisions, normalisation, acos, exp, log, conversions from matrices to quaternions, angle-axis rotations and Jacobians are outside the class."
  },
  {
   "property": "C61",
   "status": "proved",
   "theorems": [
    "WG.c61_concat",
    "WG.c61_apply",
    "WG.c61_apply_plain",
    "WG.c61_doc_apply",
    "WG.c61_apply_each",
    "WG.c61_doc_apply_each",
    "WG.c61_cartesian",
    "WG.c61_find",
    "WG.c61_unique",
    "WG.c61_doc_unique",
    "WG.c61_many",
    "WG.c61_doc_many",
    "WG.c61_leaves",
    "WG.c61_filter",
    "WG.c61_filter_error",
    "WG.c61_short_unique",
    "WG.c61_logic",
    "WG.c61_expanding",
    "WG.c61_lazy",
    "WG.c61_first_satisfies",
    "WG.c61_make_index",
    "WG.c61_concat_seq",
    "WG.c61_search",
    "WG.c61_prepare"
   ],
   "note": "The c61_doc_ theorems show where the documentation of the metafunctions is wrong."
  },
  {
   "property": "C62",
   "status": "proved",
   "theorems": [
    "WG.c62_dynamic",
    "WG.c62_jacobian",
    "WG.c62_typed",
    "WG.c62_forward",
    "WG.c62_reverse",
    "WG.c62_outcome",
    "WG.c62_exact",
    "WG.c62_derivative",
    "WG.c62_chain",
    "WG.c62_million",
    "WG.c62_forward_reverse_differ"
   ],
   "note": "Relative rounding errors at most u, no overflow or underflow. c62_jacobian, c62_forward, c62_derivative: expressions without dynamic nodes. Not covered: Jacobians that need a division (norms, normalisation, exp, log), angle-axis rotations, conversions from matrices to quaternions."
  },
  {
   "property": "C63",
   "status": "proved",
   "theorems": [
    "WG.c63_compiles_iff",
    "WG.c63_wrap_iff",
    "WG.c63_handle_of_handle",
    "WG.c63_composed_handle",
    "WG.c63_sum_of_handle",
    "WG.c63_accepted",
    "WG.c63_chain",
    "WG.c63_dispatch",
    "WG.c63_top_level",
    "WG.c63_workaround",
    "WG.c63_identity_types",
    "WG.c63_frames",
    "WG.c63_identity_times_vector"
   ],
   "note": "The condition is read off the expression as written (Spec/Wrap); twice inverting is stated for rotations."
  },
  {
   "property": "C64",
   "status": "proved",
   "theorems": [
    "WG.c64_value",
    "WG.c64_borrows",
    "WG.c64_evaluable",
    "WG.c64_local_by_name",
    "WG.c64_residual_vector",
    "WG.c64_residual_local",
    "WG.c64_residual_argument",
    "WG.c64_compound_const"
   ],
   "note": "The discipline (Spec/Function, Disciplined) also excludes operands of const prvalue type and ref() of temporaries, as in C38. c64_evaluable is for functions making no handles; with handles c64_value says what the result denotes. Theorems are conditional on the call being accepted (types agree)."
  },
  {
   "property": "C65",
   "status": "proved",
   "theorems": [
    "WG.c65_accepted",
    "WG.c65_method",
    "WG.c65_sum",
    "WG.c65_derivative",
    "WG.c65_leaf",
    "WG.c65_type_only",
    "WG.c65_wrong_object",
    "WG.c65_address_evaluators",
    "WG.c65_disagree"
   ],
   "note": "Trees without dynamic nodes; the target is a unary or binary operation or a leaf (compounds as targets are not modelled). The result is for targets that occur; for those that do not, c65_wrong_object shows the answer by type."
  },
  {
   "property": "C66",
   "status": "partial",
   "theorems": [
    "WG.c66_value",
    "WG.c66_accepted",
    "WG.c66_narrowing",
    "WG.c66_arithmetic",
    "WG.c66_capture",
    "WG.c66_derivative_partial",
    "WG.c66_integer_target_partial",
    "WG.c66_numerical",
    "WG.c66_numerical_integer",
    "WG.c66_integer_divisor",
    "WG.c66_unsigned",
    "WG.c66_reverse_overflow",
    "WG.c66_false"
   ],
   "note": "Values hold in full (c66_value, c66_arithmetic, c66_capture). The statement about Jacobians is false of the code: dividing a scalar by an integer other than 1 and -1 returns zero (c66_integer_divisor, c66_false), dividing an unsigned integer by a scalar returns the Jacobian of 2^32 - n or 2^64 - n (c66_unsigned), and reverse mode has undefined behaviour if the square of an integer divisor overflows (c66_reverse_overflow). c66_derivative_partial proves it for all expressions without such quotients, for named and temporary numbers of any type. c66_integer_target_partial adds integers as targets; c66_numerical_integer: the numerical Jacobian with respect to an integer is zero for every step below one."
  },
  {
   "property": "C67",
   "status": "proved",
   "theorems": [
    "WG.c67_error",
    "WG.c67_affine",
    "WG.c67_outcome",
    "WG.c67_exact",
    "WG.c67_rotate",
    "WG.c67_lost_step",
    "WG.c67_lost",
    "WG.c67_large_scalar",
    "WG.c67_one_class"
   ],
   "note": "c67_error bounds the distance of every outcome from the exact difference quotient (which C25 relates to the Jacobian), c67_affine from the Jacobian; the bound is computed from the expression (Spec/NumericalRounding.lean). Rotations and rigid transforms as targets or values are not covered: they need the exponential and logarithm in floating point. c67_lost: stated for positive coefficients."
  },
  {
   "property": "C68",
   "status": "proved",
   "theorems": [
    "WG.c68_error",
    "WG.c68_outcome",
    "WG.c68_exact",
    "WG.c68_extends",
    "WG.c68_ideal",
    "WG.c68_exp_meaning",
    "WG.c68_exp",
    "WG.c68_exp_large",
    "WG.c68_normalize",
    "WG.c68_condition"
   ],
   "note": "The bound is in terms of the exact values of divisors (their magnitude), sizes of operands and the units of roundoff; no overflow or underflow. The relative error of std::acos, std::sin and std::cos is a parameter. exp is compared with the exponential itself, everything else with exact arithmetic. Eigen's normalized() and division of a vector by a scalar divide each coefficient."
  },
  {
   "property": "C69",
   "status": "proved",
   "theorems": [
    "WG.c69_iff",
    "WG.c69_separate",
    "WG.c69_shared",
    "WG.c69_sweep"
   ],
   "note": "Each call is cut into its accesses to stored evaluators; every access is taken as indivisible (the C++ memory model promises less, so the positive part is about threads that share no node at all, between which there is no conflicting access)."
  },
  {
   "property": "C70",
   "status": "proved",
   "theorems": [
    "WG.c70_rotation",
    "WG.c70_vector",
    "WG.c70_xyz",
    "WG.c70_twist",
    "WG.c70_twist_columns",
    "WG.c70_rigid",
    "WG.c70_homogeneous",
    "WG.c70_made",
    "WG.c70_endless",
    "WG.c70_undefined",
    "WG.c70_otherwise",
    "WG.c70_angle_axis"
   ],
   "note": "Values: c70_rotation, c70_vector, c70_xyz, c70_twist, c70_twist_columns, c70_rigid, c70_homogeneous, c70_angle_axis. Outcomes for every argument list: c70_made, c70_endless, c70_undefined, c70_otherwise."
  },
  {
   "property": "C71",
   "status": "proved",
   "theorems": [
    "WG.c71_inverse",
    "WG.c71_compose",
    "WG.c71_exp",
    "WG.c71_log",
    "WG.c71_transform",
    "WG.c71_rotation",
    "WG.c71_translation",
    "WG.c71_cross",
    "WG.c71_quaternion",
    "WG.c71_fill",
    "WG.c71_forgotten",
    "WG.c71_strips"
   ],
   "note": "The functions of the library: c71_inverse to c71_quaternion. Any block matrix: c71_fill, c71_forgotten, c71_strips."
  },
  {
   "property": "C72",
   "status": "proved",
   "theorems": [
    "WG.c72_frames",
    "WG.c72_residual",
    "WG.c72_jacobians",
    "WG.c72_exact"
   ],
   "note": "The expression of test/imu_preint_test.cpp and its hand-derived Jacobians are transcribed in Spec/Imu; residual for all classes of rotations, Jacobians for rotation matrices as in the test, in exact arithmetic."
  },
  {
   "property": "C73",
   "status": "proved",
   "theorems": [
    "WG.c73_frames",
    "WG.c73_value",
    "WG.c73_jacobians",
    "WG.c73_repeated",
    "WG.c73_derivative",
    "WG.c73_reverse"
   ],
   "note": "Chains indexed by their length; angle-axis rotations, which the library converts, are covered for the value (also mixed with the other classes), not for the closed form of the Jacobians."
  },
  {
   "property": "C74",
   "status": "proved",
   "theorems": [
    "WG.c74_log",
    "WG.c74_double",
    "WG.c74_exists",
    "WG.c74_exact",
    "WG.c74_symmetric",
    "WG.c74_round_trip",
    "WG.c74_round_trip_large"
   ],
   "note": "Roundings are the model of C60 (no overflow or underflow); acos and sin are arbitrary within a relative error m. The half turn is the reason for the bound on the angle; c74_symmetric shows it is needed."
  },
  {
   "property": "C75",
   "status": "proved",
   "theorems": [
    "WG.Debug.c75_template",
    "WG.Debug.c75_parameters",
    "WG.Debug.c75_plain",
    "WG.Debug.c75_expression",
    "WG.Debug.c75_line",
    "WG.Debug.c75_bad_depth",
    "WG.Debug.c75_type_string",
    "WG.Debug.c75_const_lost",
    "WG.Debug.c75_const_glued"
   ],
   "note": "The demangled name is a given string. The documented 'const' qualifier of getTypeString is lost for references (c75_const_lost) and not separated from the name (c75_const_glued)."
  },
  {
   "property": "C76",
   "status": "proved",
   "theorems": [
    "WG.c76_counted",
    "WG.c76_alive",
    "WG.c76_made",
    "WG.c76_stable",
    "WG.c76_copy_move",
    "WG.c76_write_defined",
    "WG.c76_shared"
   ],
   "note": "std::shared_ptr is modelled by its counter; arguments of makeFactor are taken from left to right; assignment of factors and threads are left out. c76_made requires that no pointer is passed again after being moved from in the same call."
  },
  {
   "property": "C77",
   "status": "proved",
   "theorems": [
    "WG.c77_frames",
    "WG.c77_value",
    "WG.c77_jacobians",
    "WG.c77_repeated",
    "WG.c77_derivative",
    "WG.c77_reverse"
   ],
   "note": "Chains built through the labelled builder; the value by moving the point step by step, the Jacobians by the velocity of the point, both without products of transforms in the specification. Exact real arithmetic; the transforms are valid."
  },
  {
   "property": "C78",
   "status": "proved",
   "theorems": [
    "WG.c78_rotation",
    "WG.c78_translation",
    "WG.c78_large",
    "WG.c78_double",
    "WG.c78_moved",
    "WG.c78_loss",
    "WG.c78_exists",
    "WG.c78_exact"
   ],
   "note": "The motion is the matrix exponential of the twist. Overflow and underflow are not modelled. The constants are not sharp; c78_loss shows that the order sqrt(eps) of the translation error is attained."
  },
  {
   "property": "C79",
   "status": "proved",
   "theorems": [
    "WG.c79_error",
    "WG.c79_small",
    "WG.c79_double",
    "WG.c79_loss",
    "WG.c79_infinite",
    "WG.c79_exact"
   ],
   "note": "The motion is the matrix exponential of the twist. The rotation vector is given exactly (its own error is C74); overflow and underflow are not modelled. The constants are not sharp; c79_loss and c79_infinite show that no bound holds next to the switch."
  }
 ]
}