# Formal model of wave_geometry in Lean 4

Source modelled: `/repo/include/wave/geometry/**` (header-only C++14 template library). Paths
below are relative to `include/wave/geometry/src/`. The code is never run here; the tie to the
code is the reading recorded in the comment of each definition (file and lines).

## 1. Layout

| directory | content |
|-----------|---------|
| `lean/Verif/Model` | the code, function by function |
| `lean/Verif/Spec` | what the properties say, in Mathlib notions; no evaluation function of the model is used there, except where a property is *about* a returned value |
| `lean/Verif/Lemmas` | intermediate proofs |
| `lean/Verif/Props` | the property theorems `cNN_…`, each with a concrete `example` |
| `seeded/LOG.jsonl` | wrong programs tried against the theorems |

## 2. Choices of the model

* **Numbers.** Scalars are exact reals `ℝ`. Overflow, underflow and signed zeros are not modelled.
  Rounding is modelled separately (`Model/Rounding.lean`, C60; `Model/RoundingJac.lean`, C62): evaluation
  is a relation whose outcomes are all orders of summation, with or without fused multiply-adds, of
  rounded operations; covered are values and Jacobians of expressions without divisions (the norm of a
  vector has a value but no Jacobian there), `exp`, `log`, `acos`, conversions from
  matrices to quaternions and angle-axis rotations. `Model/RoundingDiv.lean` (C68) adds the values of
  quotients, normalised vectors, `acos` and `exp` of relative rotations (the errors of `std::acos`,
  `std::sin`, `std::cos` are a parameter); `Model/RoundingLog.lean` (C74) adds `log` of a rotation matrix,
  `Model/RoundingTwist.lean` (C78) `exp` of a twist, `Model/RoundingLogRigid.lean` (C79) the translation part of
  `log` of a rigid transform.
  `Eigen::NumTraits<Scalar>::epsilon()` is a parameter `ε` (`0 < ε`, in places `ε ≤ 1`). A division
  by zero, `acos` out of range, a square root of a negative number is a distinct outcome (`none`),
  which propagates. Theorems that speak about a value say that it exists (or are conditional on its
  existence, in which case the note in MANIFEST.json says so).
* **Compile-time rejection** (static_assert, no viable overload, ambiguity) is a distinct outcome.
  So is **undefined behaviour** (a reference to a dead object, a destroyed evaluator).
  The graphs of C36, C37, C48, C69 (`DynCache`, `Storage`) also contain dynamic nodes around expressions
  for which the compiler rejects the node (C63); their theorems hold for those graphs too.
* **Values.** Vectors are functions `ι → ℝ`, matrices `Matrix m n ℝ`, quaternions the four stored
  coefficients. The Eigen primitives used are modelled from Eigen 3.3's formulas.
* **Expression trees** (`Model/Expr.lean`): an inductive family indexed by the value class, over an
  arbitrary operator signature `Lib`, because the templates of `core/` never look inside an
  operator. Leaves are identified by address, C++ class tag and value class. `geoLib ε` is the
  signature of the library; `xLib ε` (`Model/Neutral.lean`) the one with Identity and Zero.
* **Evaluators.** One Lean function per evaluator class. Evaluator objects (`ETree`) hold the values
  cached at construction; Jacobian evaluators read the cached values as the C++ ones do.
* **User layer.** `SExpr` is what the user writes; `SExpr.elab` does overload resolution, the search
  for conversions and `prepareExpr`. `FExpr` adds frame labels; `NExpr` adds Identity and Zero;
  `Storage.Src` adds value categories, moves and temporaries.
* **Unevaluated results** (`Model/Lazy.lean`). Eigen's `operator-`, `operator*` and `transpose` return
  expressions holding references. An evaluator is a tree of automatic objects with addresses; its
  result is either plain or refers to the result of a child evaluator. Reading through a reference
  to a destroyed or moved-from object is `Run.ub`. The evaluators of unary and binary nodes construct
  their children in place; the n-ary evaluator moves its children into a tuple. The evaluator object
  returned by `prepareEvaluatorTo` is taken to be constructed in place (copy elision: C++14 permits
  it, all current compilers do it, the standard does not require it). Tables say which operators
  return unevaluated results and which arguments each `jacobianImpl` reads; that these are exactly
  the arguments the Jacobian depends on is proved (`c52_reads_…`).
* **State machines.** Leaf assignment coefficient by coefficient (`Assign`), objects with lifetimes
  (`Storage`), dynamic nodes with mutable caches (`DynCache`), two threads (`Threads`), any number of
  threads that also differentiate (`ThreadsJac`), `MatrixMap`.

## 3. What is modelled, file by file

| source | model | left out |
|--------|-------|----------|
| `core/functions/Evaluator.hpp` | `Expr` (`ETree`, `eval`), `Compound` (n-ary), `Lazy` (where results are stored) | debug printing |
| `core/functions/JacobianEvaluator.hpp` (forward, by address) | `Expr.jacTree`, `Compound` | |
| `core/functions/TypedJacobianEvaluator.hpp` | `Expr` (typed search), release and debug behaviour | |
| `core/functions/ReverseJacobianEvaluator.hpp`, `DynamicReverseJacobianEvaluator.hpp` | `Expr`, `MatrixMap` | |
| `core/functions/DynamicJacobianEvaluator.hpp` | `Expr`, `DynCache` | |
| `core/functions/NumericalJacobian.hpp` | `Expr`, `CompoundNumerical`, `NumericalRounding` (floating point) | in floating point: rotations and rigid transforms as targets or values |
| `util/meta/type_list.hpp`, `index_sequence.hpp`, `template_helpers.hpp` | `Meta`, `Compound`, `Expr` | `zip`, `elementwisePlusTo`, `elementwiseMinusTo`, `matching_base`, `function_traits` (not used by the library) |
| `core/functions/AddConversions.hpp`, `PrepareExpr.hpp`, `PrepareOutput.hpp` | `Surface`, `Neutral` | reference categories of prepared outputs (see `Storage`) |
| `core/functions/IsSame.hpp`, `IsSameType.hpp` | `CppType`, `Expr` (leaves as targets) | `isSame` of `Zero` and `Identity` (leaves like the others: by address) |
| `core/op/*` | `Ops`, `Assign` | |
| `core/storage/RefSelector, Unary, Binary, LeafStorage`, `util/macros.hpp` | `Storage`, `Assign` | |
| `core/storage/NaryStorage, BlockMatrix, CompoundLeafStorage` | `Compound`; lifetimes of the members given to `makeCompound` in `Function` | `NaryStorage::operator=(const RhsBase &)` (its parameter cannot be deduced, so it is never called) |
| `core/traits/*` | where used by the above (leaf lists, uniqueness, scalar size); plain numbers, integers among them, in `PlainNumber` | scalar types other than one inside the leaves |
| `dynamic/*` | `Expr.proxy`, `DynCompile`, `DynCache`, `Storage`, `Threads`, `ThreadsJac` | virtual dispatch as such; memory ordering below the step level |
| `estimation/Noise, Factor, Factor_impl, FactorVariable` | `Noise`, `Factor`, `FactorVariable`, `FactorGraph`; lifetimes of what functors return (locals, `residualVector`) in `Function` | `Uncertain` (plain records), uninitialised variables |
| `geometry/base/*`, `geometry/op/*` | `Vector`, `Quat`, `Rigid`, `ExpLog`, `Ops`, `Approx`, `Fuzzy`, `Compound` | printing |
| `geometry/frames/*` | `Frames` | |
| `geometry/leaf/*` | `Quat`, `Rigid`, `Assign`, `MapLeaf`, `Neutral`, `PlainNumber` | Euler angles do not exist in this commit; leaves with `Eigen::Map` storage, the parts of a Twist (blocks of its storage) and `Scalar<double &>` are in `MapLeaf` (evaluation, assignment, copies, swaps, Jacobians), everywhere else storage is owned |
| `util/math/*` | `Linear`, `CrossMat`, `MatrixMap`, `Random` | |
| `util/meta/*` | list operations in `Compound`, `Expr` | |
| `debug/PrintExpression.hpp` | `Model/PrintName` | demangled names are given strings (C75) |

Simplifications specific to one model file are listed in its header comment.

## 4. Plan and result per property

"false" means the statement fails for the code: the negation is a theorem (with a witness taken
from the model) and the part that holds is a theorem with suffix `_partial`.

| id | modelled | proof | result |
|----|----------|-------|--------|
| C01 | elaboration, conversions, tree evaluator; relation `Spec.Means` | induction on user expressions | proved, with uniqueness and totality |
| C02–C04 | Compose, Inverse, Rotate, Transform on all storage classes | matrix algebra | proved |
| C05 | MatrixRigidTransform write by write | invariant over histories | false for a constructor from an arbitrary 4x4 matrix; rest proved |
| C06 | exp of relative rotations | trigonometry | proved |
| C07 | small-angle series | Taylor bounds | fourth order false (sign of a coefficient); third order proved |
| C08 | log/exp of rotations | trigonometry | false at half-turns; rest proved |
| C09 | exp/log of twists | algebra of V, V⁻¹ | proved |
| C10 | box operators | from C02–C09 | proved |
| C11 | isApprox | norm estimates | false as stated; factor √3 (regular region), π/2·√3 (everywhere) and symmetric cases proved; angle ≤ prec, not a half-turn, is always accepted; exact coordinate condition |
| C12, C13 | vector, scalar, affine operators | algebra | proved |
| C14, C15 | Jacobian evaluators, all `jacobianImpl` | chain rule, `HasFDerivAt` per operator | proved |
| C16 | definedness at the identity, and at every other point | induction on expressions | false for log, box-minus, twist exp; exact set of points with finite Jacobians proved |
| C17–C22 | AD evaluators over an arbitrary signature | induction on trees | proved; C19 false in release builds for one case |
| C23 | quaternion vs matrix storage | relation between trees; uniqueness of derivatives | proved |
| C24 | n-ary evaluators, and where the results of their children are stored | list induction | static evaluator false (row numbering); undefined behaviour when a Jacobian reads an unevaluated result of a moved child |
| C25 | NumericalJacobian | affine exactness, limit | proved |
| C26 | MatrixMap | invariant over operation lists | proved |
| C27 | `isSame` on expression objects with the forms of their template arguments (`CppType`); `containsSame` | induction: type equality is equality of structure and forms | partial: false as stated |
| C28–C32 | labels, arrangements | case analysis, induction | C28, C30, C32 false in listed cases; rest proved |
| C33 | conversion search | list lemmas | proved |
| C34 | conversions | algebra | proved |
| C35 | dynamic wrapping | induction | static Jacobians reject some, wrapping is rejected for some (C63); rest proved |
| C36, C37 | nodes with caches; Proxy, RefProxy | invariant over histories | proved |
| C38, C39 | value categories, lifetimes | invariants over programs | false for temporaries of const type and `ref()` of a temporary |
| C40 | assignment | simulation against a write-free specification | proved |
| C41 | CrossMatrix, IdentityMatrix | matrix algebra | proved, staleness recorded |
| C42, C43 | type lists, row blocks | list induction | proved |
| C44 | random rotations | algebra | proved |
| C45 | noise | matrix algebra | proved |
| C46 | Factor | stacked blocks | Jacobian not whitened: false; residual proved; exact condition for compiling; the two factors of the repository's tests instantiated (Props/RangeBearing) |
| C47 | compound box operators | list induction | proved |
| C48 | two threads | step semantics | false; exact condition proved |
| C49, C50 | Identity, Zero | simulation by the plain expression | false in listed cases; rest proved; C50 exact condition proved |
| C51 | overload resolution | case analysis, induction | proved |
| C52 | unevaluated Eigen results held by evaluators | simulation of the evaluator with memory by the one without | proved |
| C53 | Identity, Zero against ordinary neutral objects | simulation: equal values and, path by path, equal products of local derivatives | proved |
| C54 | isApprox, isZero of vectors, points, scalars, compounds | Cauchy-Schwarz, list induction | proved |
| C55 | numerical Jacobian of compounds | stacking by list induction, then C25 per element | proved, given that compound and target have different addresses |
| C56 | arrays of factor variables | element maps; a rotation is determined by eight of its elements | proved |
| C57 | `rotation()`, `translation()` of rigid transforms and rotations | from C01, C16 | proved |
| C58 | leaves over cells of a raw memory that objects may share; copies as any schedule of loads and stores (`MapLeaf`) | induction on schedules, then C14 and C40 | proved; counterexamples for overlapping copies and shared cells |
| C59 | `rotation()`, `translation()` of a twist leaf as blocks of its cells, `Twist(rr, t)`, `std::swap` (`MapLeaf`) | C58 on the cells of the parts; C19 for the Jacobian | proved; counterexamples for swaps of blocks and for Jacobians with respect to the twist |
| C60 | floating-point evaluation as a relation (`Rounding`): rounded sums of products in any order, IEEE rounding as an instance | error of each `evalImpl` by Cauchy–Schwarz and isometry of rotations; induction on the expression | proved |
| C61 | class types as terms, metafunctions as partial functions on them, laziness through an environment of instantiations that may fail (`Meta`) | induction on packs; the conversion search of `Surface` and the leaf lists of `Expr` derived from it | proved; counterexamples to four sentences of documentation |
| C62 | Jacobians in floating point as a relation (`RoundingJac`): local Jacobians from the computed values, rounded chain-rule products with the identity and cross-matrix shortcuts | operator-norm bound and error of each local Jacobian; one lemma per chain-rule step; induction on the expression, columns for forward mode and rows for reverse mode | proved |
| C63 | static sizes of adjoints and overload resolution of `dynReverse` (`DynCompile`); `makeProxy` in `Surface`, `Frames` and `Neutral` rejects what does not compile | the condition on trees equals a syntactic one, by induction on the expression | proved |
| C64 | functions with local variables, returning an expression, the members of a compound or a tuple of references (`Function`, on the machine of `Storage`) | induction on the locals: each holds what its definition written in place denotes; what is referred to stays within the caller's variables | proved; counterexamples for locals used by name and for `residualVector` |
| C65 | `prepareExpr`, type search and both forward evaluators for a target of any expression type (`CppType`) | induction: the evaluators return the sum over occurrences of the target in the tree with the target replaced by a variable; then the chain rule of C14 | proved |
| C66 | the signature of the library extended by built-in numbers and integer scalars (`PlainNumber`): `Scalar<T &>` as a unary operation, mixed operators with the integer arithmetic the code does (truncation, wrap-around, overflow) | the expression with a `Scalar` object for every number has the same values and, under the proviso, the same local Jacobians; then C14 and C20 | partial: false when a scalar is divided by an integer or an unsigned integer by a scalar (witnesses proved) |
| C67 | the evaluator with an offset and the difference quotient with rounded operations (`NumericalRounding`), outcome a relation | the offset evaluation is an evaluation at the rounded stepped memory; C60 bounds both; then the subtraction and the division | proved for vectors, scalars and points |
| C68 | as C60, with division, `normalized()`, `std::acos` and `exp` of relative rotations as operations (`RoundingDiv`; results of libm functions: any within a given relative error); a division by zero or `acos` out of range has no outcome | error of each operation from the condition of its operand; `exp` compared with the matrix exponential, which does not increase distances; the induction of C60 with the condition as hypothesis | proved |
| C69 | calls that evaluate or differentiate, cut into accesses to `lazy_evaluator`; any number of threads (`ThreadsJac`) | invariant of each thread's program over its own nodes, unaffected by the others; a thread about to use a node's evaluator is led there, then another one destroys it | proved, both directions |
| C70 | constructors from Eigen objects: overload resolution (exact or derived-to-base conversions, requirements, specialisation), comma initialiser with its assertions, delegation with fuel (`Construct`) | case analysis over all argument lists; conversions by `Lemmas/Convert` | proved |
| C71 | Jacobians, cross matrix and quaternion filled by block assignments or a comma initialiser in a matrix of unset coefficients, range and size checks as errors (`Fill`) | evaluation of the assignments; induction over the assignments for any block matrix | proved |
| C72 | the repository's IMU preintegration test: labelled expression and the Jacobians derived by hand there (`Spec/Imu`), through the labelled builder and `evalWithJacobians` | labels by the builder; value by C08; Jacobians as the sum over occurrences (C22) compared with the hand formulas; derivative by C14 | proved |
| C73 | the chains of the repository's benchmark for any length (`Spec/Chain`), through the labelled builder, both typed and reverse evaluators | induction on the length; sum over occurrences; C14, C17, C22 | proved |
| C74 | `log` of a rotation matrix with a rounding after every operation (`RoundingLog`); `std::acos`, `std::sin`: any result within a relative error; an argument of `acos` out of range is NaN and takes the other branch; division by zero has no outcome | θ / (2 sin θ) as a Lipschitz function of cos θ (mean value theorem); error of each operation; C68 for the round trip | proved |
| C75 | the names of `debug/PrintExpression.hpp` (`PrintName`): the two regular expressions run by a backtracking matcher with continuations; demangled names are given strings; `int` 32 bits, `std::size_t` 64 | induction on qualifiers and characters | proved |
| C76 | factors, the pointers of the program and of the factors, counters and destructors (`FactorGraph`); a null pointer, a destroyed factor or an element outside the array has no outcome | invariant of the counters under every operation; C56 for the arrays | proved |
| C77 | chains of rigid transforms of both classes in any mixture (`Spec/RigidChain`: the point is moved step by step; no products, no adjoints), through the labelled builder, typed and reverse evaluators | induction on the length; the products of adjoints rewritten as the velocity of the point; C14, C17, C22 | proved |
| C78 | `exp` of a twist with a rounding after every operation (`RoundingTwist`); `std::sin`, `std::cos`: any result within a relative error; the three terms of a coefficient added in any order; division by zero has no outcome | errors of `A`, `θ² B`, `θ² C`; Frobenius norms of the two series; the small branch against the Taylor bounds of sine and cosine | proved |
| C79 | the translation part of `log` of a rigid transform with a rounding after every operation, from the rotation vector and the translation (`RoundingLogRigid`); `std::sin`, `std::cos`: any result within a relative error; a division by `B = 0` gives `none` (not finite) | error of the factor of the squared cross matrix from those of `A` and `θ² B`, with `1 - cos θ ≥ c θ²` up to a half turn; Frobenius norm of the inverse series; witnesses next to the switch | proved |

## 5. Disagreements between code and properties found

Each is a theorem: C05 `c05_matrix_constructor`; C07 `c07_fourth_order_false`; C08
`c08_half_turn_fails`; C11 `c11_rigid_not_symm`, `c11_angle_exceeds_prec`; C16 `c16_…_not_finite`;
C19 `c19_release_wrong_object`; C27 `c27_false`; C24 `c24_false`, `c24_undefined`; C28 `c28_scaling`, `c28_exp_log`,
`c28_log_minus_conflict`, `c28_translation_of_rotation_false`; C57 `c57_translation_no_jacobian`;
C58 `c58_copy_overlap`, `c58_jacobian_shared`; C59 `c59_documentation`, `c59_jacobian_missed`,
`c59_swap` (blocks); C30 `c30_other_origin`; C32 `c32_exp_log_fails`; C35 `c35_static_rejected`,
`c35_wrapping_rejected`;
C37 `c37_documentation`; C38 `c38_false`, `c38_ref_false`; C40 `c40_compact_rejected`; C41
`c41_stale`; C42 `c42_nary_rejected`; C46 `c46_false`, `c46_undefined`; C48 `c48_false`, C69 `c69_shared`, `c69_sweep`, C70 `c70_endless`, `c70_undefined` (in the properties); C12
`c12_scalar_norms_rejected`; C49 `c49_false`, `c49_zero_scalar_rejected`; C50
`c50_identity_times_vector`; C55 `c55_same_address`; C61 `c61_doc_apply`, `c61_doc_apply_each`,
`c61_doc_unique`, `c61_doc_many`; C64 `c64_local_by_name`, `c64_residual_vector`, `c64_residual_local`; C65
`c65_wrong_object`, `c65_disagree`; C66 `c66_false`, `c66_integer_divisor`, `c66_unsigned`,
`c66_reverse_overflow`; C67 `c67_large_scalar`,
C68 `c68_condition`, C78 `c78_loss`, C79 `c79_loss`, `c79_infinite` (limits of accuracy, stated in the properties).

## 6. Trusted base

* Lean 4.33 kernel.
* Axioms (`#print axioms` on every theorem named in MANIFEST.json): `propext`, `Classical.choice`,
  `Quot.sound`, and no other. `c33_none_needed`, `c42_nary_rejected`, `c61_apply`,
  `c61_apply_each` need `propext` only;
  `c33_right_first`, `c33_left_second`, `c33_both_last`, `c33_rejected_iff`, `c33_unary`, `c42_nary`,
  `c43_consecutive`, `c61_doc_apply`, `c61_short_unique`, `c61_logic`, `c61_first_satisfies` need
  `propext` and `Quot.sound`; all others use the three.
* Mathlib's definitions of `ℝ`, `Matrix`, `HasFDerivAt`, `Real.sin/cos/arccos/sqrt`.
* The reading of the C++ text recorded in the comments; the C++ rules for overload resolution,
  value categories and lifetimes as stated in `Model/Surface`, `Model/Neutral`, `Model/Storage`.
* Eigen's formulas (quaternion product, conjugate, `toRotationMatrix`, `_transformVector`,
  matrix → quaternion, `AngleAxis`, fixed-size assignment; for C45 the eigenvalue solver is any
  orthogonal diagonalisation).
* Real arithmetic in place of floating point, except in C60, C62, C67, C68, C74, C78 and C79, which bound the difference (for
  roundings with relative error at most `u`, i.e. without overflow and underflow). Theorems named
  `…_floating` are exact statements about arguments near the half-turn.
