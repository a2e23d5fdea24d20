{"id": "C01", "title": "Evaluation computes the mathematical meaning of the expression tree", "statement": "Evaluating any expression built from leaf objects with the library's operators returns exactly the value obtained by interpreting every leaf as its mathematical object (rotation, rigid transform, vector, scalar) and every operator as the corresponding operation, whichever internal representation (quaternion, matrix, angle-axis, 4x4 matrix, compact pair) each leaf uses and whichever automatic conversions are inserted.", "quantifier": "every expression tree of any depth and any mix of representations, every assignment of leaf values", "why_tests_cant": "The set of trees is infinite; tests fix a handful of shapes and random leaves.", "anchors": [{"file": "include/wave/geometry/src/core/functions/Evaluator.hpp", "symbols": ["Evaluator"]}, {"file": "include/wave/geometry/src/core/functions/PrepareExpr.hpp", "symbols": ["prepareExpr"]}, {"file": "include/wave/geometry/src/core/functions/AddConversions.hpp", "symbols": ["first_directly_evaluable_conversion_binary"]}]}
{"id": "C02", "title": "Rotations form a group", "statement": "For valid rotations composition is associative, the inverse is a two-sided inverse, identity is neutral, and every result is again a valid rotation (unit quaternion / orthonormal matrix with determinant 1), for the quaternion and the matrix representation.", "quantifier": "all valid rotation values, all nesting depths of compositions and inverses", "why_tests_cant": "Quantifies over a continuum of rotations and unbounded products.", "anchors": [{"file": "include/wave/geometry/src/geometry/leaf/QuaternionRotation.hpp", "symbols": ["evalImpl(Inverse)", "evalImpl(Compose)"]}, {"file": "include/wave/geometry/src/geometry/leaf/MatrixRotation.hpp", "symbols": ["evalImpl(Inverse)", "evalImpl(Compose)"]}]}
{"id": "C03", "title": "Rotating a vector is a group action by isometries", "statement": "(R1*R2)*v = R1*(R2*v); R.inverse()*(R*v) = v; rotating preserves norms and inner products; the quaternion and the matrix of the same rotation rotate every vector to the same result.", "quantifier": "all rotations of either representation, all vectors", "why_tests_cant": "Continuum of inputs.", "anchors": [{"file": "include/wave/geometry/src/geometry/op/Rotate.hpp", "symbols": ["Rotate"]}, {"file": "include/wave/geometry/src/geometry/leaf/QuaternionRotation.hpp", "symbols": ["evalImpl(Rotate)"]}, {"file": "include/wave/geometry/src/geometry/leaf/MatrixRotation.hpp", "symbols": ["evalImpl(Rotate)"]}]}
{"id": "C04", "title": "Rigid transforms form a group acting on points", "statement": "(T1*T2)*p = T1*(T2*p), T.inverse()*(T*p) = p, T*T.inverse() and T.inverse()*T are the identity, identity is neutral and composition is associative.", "quantifier": "all rigid transforms in both storage classes, all points", "why_tests_cant": "Continuum of inputs.", "anchors": [{"file": "include/wave/geometry/src/geometry/base/RigidTransformBase.hpp", "symbols": ["evalImpl(Inverse)", "evalImpl(Compose)"]}, {"file": "include/wave/geometry/src/geometry/base/TransformBase.hpp", "symbols": ["evalImpl(Transform)"]}]}
{"id": "C05", "title": "A matrix-stored rigid transform always keeps its constant bottom row", "statement": "After any sequence of construction, composition, inversion, conversion and assignments through rotation(), translation() and whole-object assignment, the stored 4x4 matrix has last row (0,0,0,1), and writing one block leaves the other block unchanged.", "quantifier": "all histories of operations on a matrix-stored rigid transform", "why_tests_cant": "Histories are unbounded; the row is never checked by the API.", "anchors": [{"file": "include/wave/geometry/src/geometry/leaf/MatrixRigidTransform.hpp", "symbols": ["MatrixRigidTransform", "rotationBlock", "translationBlock"]}]}
{"id": "C06", "title": "exp of a rotation vector is the rotation by that angle about that axis", "statement": "Away from the small-angle threshold, exp(phi) is a valid rotation: a unit quaternion whose matrix is I + sin(t)/t [phi] + (1-cos t)/t^2 [phi]^2 with t = |phi|; exp(0) is the identity; exp(-phi) is its inverse; exp((s+t) phi) = exp(s phi) exp(t phi) when none is in the small-angle region.", "quantifier": "all rotation vectors", "why_tests_cant": "Continuum of inputs, including the branch condition.", "anchors": [{"file": "include/wave/geometry/src/geometry/leaf/RelativeRotation.hpp", "symbols": ["evalImpl(ExpMap)"]}]}
{"id": "C07", "title": "Small-angle exp agrees with the true exponential to fourth order", "statement": "In the small-angle region exp uses a series that agrees with the exact quaternion up to fourth order in the angle.", "quantifier": "all rotation vectors below the threshold", "why_tests_cant": "Needs an error bound on a whole ball; numeric tests with 1e-6 tolerances do not see the second-order coefficient.", "anchors": [{"file": "include/wave/geometry/src/geometry/leaf/RelativeRotation.hpp", "symbols": ["evalImpl(ExpMap)"]}]}
{"id": "C08", "title": "log inverts exp on rotations", "statement": "log(exp(phi)) = phi for every phi with |phi| < pi outside the small-angle region, and exp(log(R)) = R for every valid rotation R outside the small-angle region, including half-turns.", "quantifier": "all rotation vectors in the ball of radius pi; all rotations", "why_tests_cant": "Continuum, with a measure-zero exceptional set random tests never hit.", "anchors": [{"file": "include/wave/geometry/src/geometry/leaf/MatrixRotation.hpp", "symbols": ["evalImpl(LogMap)"]}, {"file": "include/wave/geometry/src/geometry/leaf/RelativeRotation.hpp", "symbols": ["evalImpl(ExpMap)"]}]}
{"id": "C09", "title": "log inverts exp on rigid transforms", "statement": "log(exp(xi)) = xi for every twist with rotation angle in the regular range, and exp(log(T)) = T for every rigid transform whose rotation angle is regular.", "quantifier": "all twists and rigid transforms in the regular range", "why_tests_cant": "Continuum of inputs.", "anchors": [{"file": "include/wave/geometry/src/geometry/leaf/Twist.hpp", "symbols": ["evalImpl(ExpMap)"]}, {"file": "include/wave/geometry/src/geometry/base/RigidTransformBase.hpp", "symbols": ["evalImpl(LogMap)"]}]}
{"id": "C10", "title": "Box-plus and box-minus are mutually inverse", "statement": "(X + d) - X = d and Y + (X - Y) = X for rotations, rigid transforms, vectors and points (regular angle range for rotations and transforms).", "quantifier": "all manifold elements and tangent vectors in the regular range", "why_tests_cant": "Continuum of inputs; estimation relies on it at every iterate.", "anchors": [{"file": "include/wave/geometry/src/geometry/op/BoxPlus.hpp", "symbols": ["BoxPlus"]}, {"file": "include/wave/geometry/src/geometry/op/BoxMinus.hpp", "symbols": ["BoxMinus"]}]}
{"id": "C11", "title": "isApprox on transforms is reflexive, symmetric and only true for close elements", "statement": "a.isApprox(a) holds, a.isApprox(b) iff b.isApprox(a), and a.isApprox(b, prec) implies that the rotation taking b to a has angle at most prec.", "quantifier": "all pairs of rotations or rigid transforms, all precisions", "why_tests_cant": "Random pairs never hit the half-turn case.", "anchors": [{"file": "include/wave/geometry/src/geometry/base/TransformBase.hpp", "symbols": ["isApprox"]}, {"file": "include/wave/geometry/src/geometry/base/AffineBase.hpp", "symbols": ["isApprox", "isZero"]}, {"file": "include/wave/geometry/src/geometry/base/ScalarBase.hpp", "symbols": ["isApprox"]}]}
{"id": "C12", "title": "Vector algebra laws", "statement": "Sum, difference, negation, scaling on either side, division by a scalar, dot product, norms and normalisation satisfy the vector-space and inner-product laws: (a+b)-b=a, -(a)=0-a, (s*v)/s=v for s<>0, |v|^2 = v.v, |s v| = |s||v|, |v.normalized()|=1 for v<>0, Cauchy-Schwarz, and division by zero or normalising zero never silently yields a finite wrong value.", "quantifier": "all vectors of every dimension and all scalars", "why_tests_cant": "Continuum of inputs and every dimension.", "anchors": [{"file": "include/wave/geometry/src/geometry/base/VectorBase.hpp", "symbols": ["evalImpl"]}, {"file": "include/wave/geometry/src/geometry/base/ScalarBase.hpp", "symbols": ["evalImpl"]}]}
{"id": "C13", "title": "Affine laws for points", "statement": "(p + v) - p = v, p + (q - p) = q, (p + v) + w = p + (v + w), v + p = p + v, and the difference of points is the zero vector only for equal points.", "quantifier": "all points and displacement vectors", "why_tests_cant": "Continuum of inputs.", "anchors": [{"file": "include/wave/geometry/src/geometry/base/AffineBase.hpp", "symbols": ["evalImpl(Sum)", "evalImpl(Subtract)"]}]}
{"id": "C14", "title": "The Jacobian returned is the derivative of the value returned", "statement": "For every expression and every leaf, jacobian(leaf), when it has finite entries, is the derivative at zero of d -> eval(expr with leaf replaced by leaf + d) - eval(expr), with + and - the library's own manifold operations (regular points only).", "quantifier": "every expression tree, every assignment of leaf values at which the nodes are regular, every target leaf", "why_tests_cant": "Infinite family of trees and a limit; tests compare with finite differences at random points.", "anchors": [{"file": "include/wave/geometry/src/core/functions/JacobianEvaluator.hpp", "symbols": ["JacobianEvaluator"]}, {"file": "include/wave/geometry/src/core/base/ExpressionBase.hpp", "symbols": ["jacobian"]}]}
{"id": "C15", "title": "Every operator's local Jacobians are the true derivatives of its value", "statement": "For Compose, Inverse, Rotate, Transform, ExpMap, LogMap, BoxPlus, BoxMinus, rotation(), translation(), Sum, Subtract, Minus, Scale, ScaleR, ScaleDiv, Dot, Norm, SquaredNorm, Normalize, Product, Divide, ACos and conversions, the Jacobian with respect to each operand is the derivative of the result under perturbation of that operand, at every regular argument.", "quantifier": "all operand values of each operator", "why_tests_cant": "Limit statement over a continuum.", "anchors": [{"file": "include/wave/geometry/src/geometry/base/TransformBase.hpp", "symbols": ["leftJacobianImpl", "rightJacobianImpl"]}, {"file": "include/wave/geometry/src/geometry/base/VectorBase.hpp", "symbols": ["jacobianImpl"]}, {"file": "include/wave/geometry/src/geometry/op/LogMap.hpp", "symbols": ["jacobianImpl"]}, {"file": "include/wave/geometry/src/geometry/leaf/RelativeRotation.hpp", "symbols": ["jacobianImpl(ExpMap)"]}, {"file": "include/wave/geometry/src/geometry/leaf/Twist.hpp", "symbols": ["jacobianImpl(ExpMap)"]}]}
{"id": "C16", "title": "Jacobians are defined at the identity", "statement": "exp, log and box-minus return finite Jacobians at zero / the identity, the point at which every iterative estimator evaluates them.", "quantifier": "all expressions evaluated at identity-valued transforms", "why_tests_cant": "Negative: random tests never evaluate at the identity.", "anchors": [{"file": "include/wave/geometry/src/geometry/op/LogMap.hpp", "symbols": ["jacobianImpl"]}, {"file": "include/wave/geometry/src/geometry/base/RigidTransformBase.hpp", "symbols": ["jacobianImpl(LogMap)"]}, {"file": "include/wave/geometry/src/geometry/leaf/Twist.hpp", "symbols": ["jacobianImpl(ExpMap)"]}, {"file": "include/wave/geometry/src/geometry/leaf/RelativeRotation.hpp", "symbols": ["jacobianImpl(ExpMap)"]}]}
{"id": "C17", "title": "Reverse mode returns the same Jacobians as forward mode, one per leaf, in reading order", "statement": "evalWithJacobians() returns the value followed by exactly one Jacobian per leaf of the tree in left-to-right order, each equal to jacobian(leaf).", "quantifier": "every expression tree with pairwise distinct leaf types", "why_tests_cant": "All tree shapes.", "anchors": [{"file": "include/wave/geometry/src/core/functions/ReverseJacobianEvaluator.hpp", "symbols": ["ReverseJacobianEvaluator"]}, {"file": "include/wave/geometry/src/core/base/ExpressionBase.hpp", "symbols": ["evalWithJacobians"]}]}
{"id": "C18", "title": "Automatic choice between typed and address-based differentiation is unobservable", "statement": "For a tree with pairwise distinct leaf types and a target that is a leaf object of the tree, the type-based shortcut gives the same Jacobian as the address-based evaluation.", "quantifier": "every tree with unique leaf types, every leaf of it", "why_tests_cant": "All tree shapes; and the shortcut is only taken for some types.", "anchors": [{"file": "include/wave/geometry/src/core/functions/TypedJacobianEvaluator.hpp", "symbols": ["TypedJacobianEvaluator", "evaluateJacobianAuto"]}]}
{"id": "C19", "title": "Differentiating with respect to an object that does not occur gives zero", "statement": "jacobian(x) is the zero matrix when the object x does not occur in the expression, even when another object of the same type does.", "quantifier": "every expression tree and every object not in it", "why_tests_cant": "All tree shapes; release builds drop the assertion that guards the shortcut.", "anchors": [{"file": "include/wave/geometry/src/core/functions/TypedJacobianEvaluator.hpp", "symbols": ["evaluateTypedJacobian"]}, {"file": "include/wave/geometry/src/core/functions/JacobianEvaluator.hpp", "symbols": ["evaluateOneJacobian"]}]}
{"id": "C20", "title": "A leaf used several times contributes the sum over its occurrences", "statement": "jacobian(x) equals the sum, over all occurrences of the object x, of the product of local Jacobians along the path from the root to that occurrence.", "quantifier": "every tree, any number of occurrences", "why_tests_cant": "Unbounded number of occurrences and depths.", "anchors": [{"file": "include/wave/geometry/src/core/functions/JacobianEvaluator.hpp", "symbols": ["JacobianEvaluator"]}, {"file": "include/wave/geometry/src/core/functions/DynamicReverseJacobianEvaluator.hpp", "symbols": ["DynamicReverseJacobianEvaluator"]}]}
{"id": "C21", "title": "Runtime (dynamic) differentiation agrees with compile-time differentiation", "statement": "Forward and reverse evaluation through dynamic dispatch give, for every leaf object, the same Jacobian as the static forward evaluation, and the reverse map holds an entry for every leaf object of the expression and no other.", "quantifier": "every expression, with any nesting of dynamic nodes, every leaf object", "why_tests_cant": "All shapes and sharing patterns.", "anchors": [{"file": "include/wave/geometry/src/core/functions/DynamicJacobianEvaluator.hpp", "symbols": ["DynamicJacobianEvaluator"]}, {"file": "include/wave/geometry/src/core/functions/DynamicReverseJacobianEvaluator.hpp", "symbols": ["evaluateWithDynamicReverseJacobians"]}]}
{"id": "C22", "title": "evalWithJacobians agrees with eval and jacobian", "statement": "evalWithJacobians(x1,...,xn) returns (eval(), jacobian(x1), ..., jacobian(xn)) in the order of the arguments, and the value is computed once: every node is evaluated exactly once however many targets are requested.", "quantifier": "every expression and every list of targets", "why_tests_cant": "All trees and all argument lists.", "anchors": [{"file": "include/wave/geometry/src/core/base/ExpressionBase.hpp", "symbols": ["evalWithJacobians"]}, {"file": "include/wave/geometry/src/core/functions/JacobianEvaluator.hpp", "symbols": ["evaluateWithJacobians"]}]}
{"id": "C23", "title": "Jacobians do not depend on the rotation representation", "statement": "Replacing every quaternion leaf by the matrix leaf of the same rotation (or the reverse) changes neither the rotation or vector the expression denotes nor any Jacobian.", "quantifier": "every expression over rotations and vectors, every leaf value", "why_tests_cant": "All trees and a continuum of values.", "anchors": [{"file": "include/wave/geometry/src/geometry/leaf/QuaternionRotation.hpp", "symbols": ["jacobianImpl"]}, {"file": "include/wave/geometry/src/geometry/leaf/MatrixRotation.hpp", "symbols": ["jacobianImpl"]}]}
{"id": "C24", "title": "Jacobians of compound measurements stack the element Jacobians", "statement": "For an expression whose result is a compound of several elements, jacobian(x) has, in the rows of each element, that element's Jacobian with respect to x, and zero rows for elements that do not depend on x.", "quantifier": "every compound expression of any number of elements, every target", "why_tests_cant": "Any number of elements and any subset depending on the target.", "anchors": [{"file": "include/wave/geometry/src/core/functions/JacobianEvaluator.hpp", "symbols": ["combineChildJacobians"]}, {"file": "include/wave/geometry/src/core/functions/DynamicJacobianEvaluator.hpp", "symbols": ["combineChildJacobians"]}]}
{"id": "C25", "title": "Numerical Jacobian is exact for affine expressions and converges otherwise", "statement": "The forward-difference Jacobian equals the analytic one when the expression is affine in the target, for every step size, and tends to the analytic Jacobian as the step tends to zero at every regular point.", "quantifier": "every expression, target and nonzero step", "why_tests_cant": "Limit statement.", "anchors": [{"file": "include/wave/geometry/src/core/functions/NumericalJacobian.hpp", "symbols": ["evaluateNumericalJacobian"]}]}
{"id": "C26", "title": "The Jacobian map accumulates into disjoint blocks", "statement": "After any sequence of accumulate operations, the block stored for each key equals the sum of what was added to that key, blocks of different keys never overlap, and keys that were not registered at construction are reported missing by count and at.", "quantifier": "all key sets, widths and sequences of accumulations", "why_tests_cant": "Unbounded histories.", "anchors": [{"file": "include/wave/geometry/src/util/math/MatrixMap.hpp", "symbols": ["MatrixMap"]}]}
{"id": "C27", "title": "Object identity decides sameness", "statement": "isSame(a,b) holds exactly when both expressions have the same structure and refer to the same leaf objects; it is an equivalence relation; containsSame(e,x) holds exactly when x occurs in e.", "quantifier": "all pairs of expressions", "why_tests_cant": "All trees.", "anchors": [{"file": "include/wave/geometry/src/core/functions/IsSame.hpp", "symbols": ["isSame", "containsSame"]}, {"file": "include/wave/geometry/src/core/functions/IsSameType.hpp", "symbols": ["contains_same_type"]}]}
{"id": "C28", "title": "Accepted expressions have correct frame labels", "statement": "If every leaf's numeric value is the quantity its frame labels name in some arrangement of coordinate frames, then every accepted expression's value is the quantity its resulting frame labels name in the same arrangement.", "quantifier": "every accepted expression, every arrangement of frames in space", "why_tests_cant": "All trees and all arrangements; frames are a compile-time feature tests only exercise by example.", "anchors": [{"file": "include/wave/geometry/src/geometry/frames/frame_traits.hpp", "symbols": ["WrapWithFrames"]}, {"file": "include/wave/geometry/src/geometry/op/Sum.hpp", "symbols": ["Sum"]}, {"file": "include/wave/geometry/src/geometry/op/Subtract.hpp", "symbols": ["Subtract"]}, {"file": "include/wave/geometry/src/geometry/op/Compose.hpp", "symbols": ["Compose"]}, {"file": "include/wave/geometry/src/geometry/op/Rotate.hpp", "symbols": ["Rotate"]}, {"file": "include/wave/geometry/src/geometry/op/Transform.hpp", "symbols": ["Transform"]}]}
{"id": "C29", "title": "Frame checks accept exactly the operand labels that make sense", "statement": "A sum or difference of two vectors is accepted exactly when both are expressed in the same frame and their endpoints chain; Compose, Rotate and Transform are accepted exactly when the inner frames match.", "quantifier": "all combinations of frame labels", "why_tests_cant": "All label combinations (an unbounded set of frames).", "anchors": [{"file": "include/wave/geometry/src/geometry/op/Sum.hpp", "symbols": ["Sum"]}, {"file": "include/wave/geometry/src/geometry/op/Subtract.hpp", "symbols": ["Subtract"]}, {"file": "include/wave/geometry/src/geometry/op/Transform.hpp", "symbols": ["Transform"]}, {"file": "include/wave/geometry/src/geometry/op/Rotate.hpp", "symbols": ["Rotate"]}]}
{"id": "C30", "title": "Transforming a vector is only accepted for a point of the transform's source frame", "statement": "T_AB * r is accepted only for r measured from the origin of B and expressed in B, and gives the position of the same point from A in A.", "quantifier": "all frame labels, all arrangements", "why_tests_cant": "All labels and arrangements.", "anchors": [{"file": "include/wave/geometry/src/geometry/op/Transform.hpp", "symbols": ["Transform"]}]}
{"id": "C31", "title": "Frame labels never change numbers", "statement": "Framing, unframing or frame_cast-ing leaves changes neither values nor Jacobians of an expression that is accepted.", "quantifier": "every accepted expression", "why_tests_cant": "All trees.", "anchors": [{"file": "include/wave/geometry/src/geometry/frames/Framed.hpp", "symbols": ["Framed"]}, {"file": "include/wave/geometry/src/geometry/frames/frame_cast.hpp", "symbols": ["frame_cast"]}]}
{"id": "C32", "title": "Manifold operations respect frame labels", "statement": "X - Y is accepted only for X, Y with equal labels; X + v is accepted exactly for an increment expressed in X's left frame from it to X's right frame; Y + (X - Y) is accepted and carries the labels of X; exp(log(X)) carries the labels of X.", "quantifier": "all frame labels", "why_tests_cant": "All labels.", "anchors": [{"file": "include/wave/geometry/src/geometry/op/BoxPlus.hpp", "symbols": ["BoxPlus"]}, {"file": "include/wave/geometry/src/geometry/op/BoxMinus.hpp", "symbols": ["BoxMinus"]}, {"file": "include/wave/geometry/src/geometry/op/LogMap.hpp", "symbols": ["LogMap"]}, {"file": "include/wave/geometry/src/geometry/op/ExpMap.hpp", "symbols": ["ExpMap"]}]}
{"id": "C33", "title": "Automatic conversion search is complete, prioritised and minimal", "statement": "An operation on two operands is accepted exactly when some choice of at most one listed conversion per operand makes it directly evaluable; the chosen one uses no conversion when none is needed, prefers converting only the right operand, then only the left, then both, and within each the first listed.", "quantifier": "every table of implemented operations and conversions, every pair of operand types", "why_tests_cant": "All operation tables, including future ones.", "anchors": [{"file": "include/wave/geometry/src/core/functions/AddConversions.hpp", "symbols": ["first_directly_evaluable_conversion_unary", "first_directly_evaluable_conversion_binary"]}]}
{"id": "C34", "title": "Conversions between rotation representations preserve the rotation", "statement": "Quaternion to matrix, matrix to quaternion and angle-axis to either give the same rotation; matrix to quaternion to matrix returns the same matrix for every valid rotation matrix, in every branch of the conversion.", "quantifier": "all valid rotations", "why_tests_cant": "Continuum with four numeric branches.", "anchors": [{"file": "include/wave/geometry/src/geometry/leaf/QuaternionRotation.hpp", "symbols": ["evalImpl(Convert)"]}, {"file": "include/wave/geometry/src/geometry/leaf/AngleAxisRotation.hpp", "symbols": ["evalImpl(Convert)"]}, {"file": "include/wave/geometry/src/geometry/leaf/MatrixRotation.hpp", "symbols": ["MatrixRotation"]}]}
{"id": "C35", "title": "Proxies and dynamic nodes are transparent", "statement": "Replacing any subexpression by a Proxy to it changes neither the value nor the Jacobian with respect to any leaf object.", "quantifier": "every expression, every choice of subexpressions wrapped, any sharing", "why_tests_cant": "All wrappings.", "anchors": [{"file": "include/wave/geometry/src/dynamic/Proxy.hpp", "symbols": ["Proxy"]}, {"file": "include/wave/geometry/src/dynamic/Dynamic.hpp", "symbols": ["Dynamic"]}]}
{"id": "C36", "title": "Dynamic expressions never answer from a stale cache", "statement": "After any history of changes to leaf objects, rebinding of proxies, evaluations and Jacobian requests, every evaluation and every Jacobian request on a dynamic expression reflects the leaf values at the time of that call.", "quantifier": "all histories of mutations and calls, all sharing of dynamic nodes", "why_tests_cant": "Unbounded histories; the cache is mutable state inside const methods.", "anchors": [{"file": "include/wave/geometry/src/dynamic/Dynamic.hpp", "symbols": ["lazy_evaluator", "dynEvaluate", "dynJacobian", "dynReverseImpl"]}]}
{"id": "C37", "title": "Copying and assigning proxies rebinds only that handle", "statement": "Assigning to a proxy changes what that handle denotes from then on and changes neither other copies nor expressions already built from it (for Proxy and for RefProxy).", "quantifier": "all histories of proxy copies, assignments and expression constructions", "why_tests_cant": "Unbounded histories.", "anchors": [{"file": "include/wave/geometry/src/dynamic/Proxy.hpp", "symbols": ["Proxy", "arg_selector"]}, {"file": "include/wave/geometry/src/dynamic/RefProxy.hpp", "symbols": ["RefProxy", "arg_selector"]}]}
{"id": "C38", "title": "auto is safe: stored expressions never refer to dead temporaries", "statement": "An expression object held in an auto variable refers only to objects that were lvalues when it was built; temporaries, including temporary subexpressions of any depth, are owned by it.", "quantifier": "every way of building an expression from named objects, temporaries and moved objects, at any depth", "why_tests_cant": "All construction shapes and value categories.", "anchors": [{"file": "include/wave/geometry/src/core/storage/RefSelector.hpp", "symbols": ["arg_selector", "storage_selector"]}, {"file": "include/wave/geometry/src/util/macros.hpp", "symbols": ["WAVE_OVERLOAD_FUNCTION_FOR_RVALUES"]}]}
{"id": "C39", "title": "Named leaves are read at evaluation time, temporaries are snapshots", "statement": "A stored expression evaluated later reflects later changes to the named objects it was built from, and is unaffected by anything else.", "quantifier": "every expression and every history of writes after its construction", "why_tests_cant": "Unbounded histories.", "anchors": [{"file": "include/wave/geometry/src/core/storage/RefSelector.hpp", "symbols": ["storage_selector"]}, {"file": "include/wave/geometry/src/core/storage/LeafStorage.hpp", "symbols": ["LeafStorage"]}]}
{"id": "C40", "title": "Assignment from an expression mentioning the target is safe", "statement": "x = e stores the value e had before the assignment, even when e mentions x; this also holds for assignment to a whole leaf and to rotation()/translation() of a transform that e mentions.", "quantifier": "every expression e and leaf x", "why_tests_cant": "All expressions with any aliasing.", "anchors": [{"file": "include/wave/geometry/src/core/storage/LeafStorage.hpp", "symbols": ["operator="]}, {"file": "include/wave/geometry/src/core/op/MemberAccess.hpp", "symbols": ["operator="]}]}
{"id": "C41", "title": "The implicit cross-product and identity matrices behave like dense ones", "statement": "Products of the special cross-product matrix and identity matrix types with vectors, row vectors, matrices and each other, their negation, transpose and sum equal the same operations on the dense 3x3 matrices; the inverse map from skew matrices to vectors recovers the vector.", "quantifier": "all vectors and matrices of every width", "why_tests_cant": "Continuum and every width.", "anchors": [{"file": "include/wave/geometry/src/util/math/CrossMatrix.hpp", "symbols": ["CrossMatrix", "operator*"]}, {"file": "include/wave/geometry/src/util/math/IdentityMatrix.hpp", "symbols": ["IdentityMatrix"]}, {"file": "include/wave/geometry/src/util/math/math.hpp", "symbols": ["crossMatrix", "uncrossMatrix"]}]}
{"id": "C42", "title": "Uniqueness of leaf types is decided exactly", "statement": "The unique-leaf-types trait of an expression is true exactly when no leaf type occurs twice in it, and the list of leaf types is then the leaves in reading order.", "quantifier": "every expression tree", "why_tests_cant": "All trees.", "anchors": [{"file": "include/wave/geometry/src/core/traits/type_traits.hpp", "symbols": ["has_unique_leaves_binary"]}, {"file": "include/wave/geometry/src/util/meta/type_list.hpp", "symbols": ["concat_if_unique"]}]}
{"id": "C43", "title": "Compound layouts partition the tangent vector", "statement": "The row ranges assigned to the elements of a compound are consecutive, disjoint and cover exactly the tangent dimension of the compound.", "quantifier": "all lists of element dimensions", "why_tests_cant": "All lists.", "anchors": [{"file": "include/wave/geometry/src/util/meta/type_list.hpp", "symbols": ["cumulative_index_sequence"]}, {"file": "include/wave/geometry/src/core/storage/BlockMatrix.hpp", "symbols": ["BlockMatrix"]}]}
{"id": "C44", "title": "Random rotations are valid rotations", "statement": "Whatever random numbers are drawn, Random() yields a unit quaternion (hence a valid rotation in every representation).", "quantifier": "all draws of the underlying generator", "why_tests_cant": "All draws.", "anchors": [{"file": "include/wave/geometry/src/util/math/math.hpp", "symbols": ["randomQuaternion"]}]}
{"id": "C45", "title": "Noise models whiten", "statement": "For a noise model built from standard deviations or from a positive definite covariance, W = inverseSqrtCov() satisfies W cov W^T = I and covariance() returns the given covariance.", "quantifier": "all dimensions, all nonzero deviations / positive definite covariances", "why_tests_cant": "All dimensions and a continuum.", "anchors": [{"file": "include/wave/geometry/src/estimation/Noise.hpp", "symbols": ["FullNoise", "DiagonalNoise"]}]}
{"id": "C46", "title": "Factor residuals and Jacobians are whitened consistently", "statement": "A factor's evaluate returns W (f(x) - z); evaluateWithJacobians returns the same residual together with the derivative of that residual with respect to every variable.", "quantifier": "all factors, measurements and variable values", "why_tests_cant": "All functors and values.", "anchors": [{"file": "include/wave/geometry/src/estimation/impl/Factor_impl.hpp", "symbols": ["evaluate", "evaluateWithJacobians"]}]}
{"id": "C47", "title": "Compound box-plus and box-minus act element by element and are mutually inverse", "statement": "For compounds of any number of elements, (c + d) - c = d and a + (b - a) = b whenever this holds for each element, each element using exactly its own rows of the tangent vector.", "quantifier": "all lists of elements", "why_tests_cant": "Any number of elements.", "anchors": [{"file": "include/wave/geometry/src/geometry/base/CompoundBase.hpp", "symbols": ["evalImpl(CompoundBoxPlus)", "evalImpl(CompoundBoxMinus)"]}]}
{"id": "C48", "title": "Concurrent evaluation of a shared dynamic expression is safe", "statement": "Two threads that only call const evaluation functions on dynamic expressions sharing a node both get the value of the leaves.", "quantifier": "all interleavings of the two evaluations", "why_tests_cant": "All schedules.", "anchors": [{"file": "include/wave/geometry/src/dynamic/Dynamic.hpp", "symbols": ["lazy_evaluator"]}]}
{"id": "C49", "title": "Identity and Zero expressions evaluate like the identity and zero", "statement": "An expression containing Identity<T>() and Zero<T>() objects compiles and evaluates to the same object as the expression with ordinary leaves holding the identity or zero in their place; the result is again an Identity or Zero exactly when the algebra makes it one.", "quantifier": "all expressions over all operators, classes and nestings, all leaf values", "why_tests_cant": "Overload resolution picks a different overload for every combination of operand classes; the combinations under nesting are unbounded.", "anchors": [{"file": "include/wave/geometry/src/geometry/leaf/Identity.hpp", "symbols": ["Identity", "evalImpl(Inverse)", "evalImpl(Compose)", "evalImpl(Rotate)", "evalImpl(Transform)", "evalImpl(LogMap)"]}, {"file": "include/wave/geometry/src/geometry/leaf/Zero.hpp", "symbols": ["Zero", "evalImpl(Sum)", "evalImpl(Minus)", "evalImpl(ExpMap)"]}]}
{"id": "C50", "title": "Jacobians through Identity and Zero", "statement": "For an expression containing Identity<T>() and Zero<T>() objects, jacobian(x) with respect to an ordinary leaf x compiles and is the derivative of the expression with respect to x.", "quantifier": "all expressions, all leaves, all regular values", "why_tests_cant": "Limits, and unboundedly many expressions.", "anchors": [{"file": "include/wave/geometry/src/geometry/leaf/Identity.hpp", "symbols": ["evalImpl(Compose)", "evalImpl(Rotate)", "evalImpl(Transform)"]}, {"file": "include/wave/geometry/src/geometry/leaf/Zero.hpp", "symbols": ["jacobianImpl(ExpMap)", "evalImpl(Sum)"]}, {"file": "include/wave/geometry/src/geometry/op/Compose.hpp", "symbols": ["leftJacobianImpl", "rightJacobianImpl"]}]}
{"id": "C51", "title": "The Identity and Zero overloads do not affect other expressions", "statement": "An expression that mentions no Identity or Zero is accepted or rejected, evaluates, and is differentiated as if the Identity and Zero overloads did not exist.", "quantifier": "all expressions, all leaf values", "why_tests_cant": "Overload resolution over all combinations of operand classes under unbounded nesting.", "anchors": [{"file": "include/wave/geometry/src/geometry/leaf/Identity.hpp", "symbols": ["evalImpl"]}, {"file": "include/wave/geometry/src/geometry/leaf/Zero.hpp", "symbols": ["evalImpl"]}]}
{"id": "C52", "title": "Unevaluated Eigen results never outlive the evaluators they refer to", "statement": "Some operators (unary minus, scaling and division of vectors, inverse of a matrix rotation, frame_cast of these) return Eigen expressions that refer to the results held by the operands' evaluators. During eval(), jacobian(x) and evaluateDynamicJacobian of an expression that is not a compound, every such reference refers to a live object, so the calls return what they would if every result were evaluated at once.", "quantifier": "every expression tree over any signature, any assignment of lazy and eager results to its operators, all leaf values and targets", "why_tests_cant": "Dangling references often read the old bytes and go unnoticed; which operators are combined, how deep, and which Jacobian overload reads which result varies without bound.", "anchors": [{"file": "include/wave/geometry/src/core/functions/Evaluator.hpp", "symbols": ["Evaluator"]}, {"file": "include/wave/geometry/src/core/functions/PrepareOutput.hpp", "symbols": ["prepareEvaluatorTo"]}, {"file": "include/wave/geometry/src/geometry/base/VectorBase.hpp", "symbols": ["evalImpl", "jacobianImpl", "leftJacobianImpl", "rightJacobianImpl"]}, {"file": "include/wave/geometry/src/core/functions/JacobianEvaluator.hpp", "symbols": ["JacobianEvaluator"]}]}
{"id": "C53", "title": "Identity and Zero in place of ordinary objects leave Jacobians as they are", "statement": "Take an expression with Identity<T>() and Zero<T>() objects, covered by the rules of C49 (no Zero scaled by a scalar, no Zero vector plus Zero point, no rotation()/translation() of a composite identity), and the same expression with ordinary objects of class T holding the identity or zero in their place. For every object of the expression, including the Identity and Zero objects themselves, the Jacobians of the two expressions with respect to corresponding objects are equal wherever both compile and are finite; so the first is the derivative of the second's value.", "quantifier": "all expressions, all objects in them, all regular values", "why_tests_cant": "Unboundedly many expressions, and equality of a special case with the general one at every point.", "anchors": [{"file": "include/wave/geometry/src/geometry/leaf/Identity.hpp", "symbols": ["evalImpl(Compose)", "evalImpl(Rotate)", "evalImpl(Transform)"]}, {"file": "include/wave/geometry/src/geometry/leaf/Zero.hpp", "symbols": ["jacobianImpl(ExpMap)", "evalImpl(Sum)"]}, {"file": "include/wave/geometry/src/geometry/op/Compose.hpp", "symbols": ["leftJacobianImpl", "rightJacobianImpl"]}]}
{"id": "C54", "title": "Fuzzy comparison of vectors, points, scalars and compounds is relative, symmetric and unit-free", "statement": "a.isApprox(b, prec) on vector or scalar expressions of one kind, or on points, with prec >= 0, holds exactly when the distance of the two values is at most prec times the smaller of their lengths. Hence it is reflexive, symmetric, unchanged when both are scaled by the same nonzero scalar, bounds the difference of the lengths, and accepts nothing but zero against zero; operands of different kinds are rejected by the compiler. a.isZero(prec) holds exactly when no coefficient exceeds prec. Compounds can be compared exactly when their element classes agree, and are approximately equal exactly when every pair of elements is, which implies, and is stricter than, approximate equality of the stacked vectors.", "quantifier": "all expressions, values, precisions and compounds", "why_tests_cant": "An equivalence over all values and precisions; symmetry also for values that are not finite.", "anchors": [{"file": "include/wave/geometry/src/geometry/base/AffineBase.hpp", "symbols": ["isApprox", "isZero"]}, {"file": "include/wave/geometry/src/geometry/base/ScalarBase.hpp", "symbols": ["isApprox", "isZero"]}, {"file": "include/wave/geometry/src/geometry/base/CompoundBase.hpp", "symbols": ["isApprox"]}, {"file": "include/wave/geometry/src/core/storage/NaryStorage.hpp", "symbols": ["compoundIsApprox", "compoundIsApproxExpand"]}]}
{"id": "C55", "title": "The numerical Jacobian of a compound stacks those of its elements", "statement": "For a compound of any number of expressions, and a target whose address is not that of the compound object itself, every column of evaluateNumericalJacobian(target) is the stack, in element order, of the columns of the numerical Jacobians of the elements, zero where the target does not occur. When all elements are affine in the target it equals the stacked analytic Jacobian for every non-zero step; at regular points where the element Jacobians are finite it tends to it as the step tends to zero. (If compound and target share an address, as an element held by value may, unrelated elements are reported to depend on the target.)", "quantifier": "all compounds, element expressions, memories, targets, columns and non-zero steps", "why_tests_cant": "Convergence as the step tends to zero, for arbitrary compounds; tests use one step size and a tolerance.", "anchors": [{"file": "include/wave/geometry/src/core/functions/NumericalJacobian.hpp", "symbols": ["EvaluatorWithDelta", "evaluateNumericalJacobianImpl", "makeTangent", "evaluateWithDeltaImpl"]}, {"file": "include/wave/geometry/src/core/functions/IsSame.hpp", "symbols": ["isSame"]}, {"file": "include/wave/geometry/src/core/storage/NaryStorage.hpp", "symbols": ["naryValueAsVectorExpand", "valueAsVector"]}]}
{"id": "C56", "title": "The array of a factor variable is its leaf, coefficient by coefficient", "statement": "For a FactorVariable<Leaf> that compiles (Leaf a vector other than Scalar, a point, a matrix rotation or a matrix rigid transform), data() has exactly size() elements: writing one changes that element and no other element or object, and the array determines the leaf. For vectors and points size() is the number of columns of the Jacobians with respect to the variable, adding a step to the array is box-plus with that step, and the residual of a factor as a function of the array has the derivative with respect to the variable as its derivative. For matrix rotations and transforms neither holds: size() is larger, and changing a single element makes the value invalid, always for rotations, and for transforms except for the three elements of the translation.", "quantifier": "all leaf classes, memories, elements, written values, factors and steps", "why_tests_cant": "No test calls data() or size(); the claims are over all contents and include a derivative.", "anchors": [{"file": "include/wave/geometry/src/estimation/FactorVariable.hpp", "symbols": ["FactorVariable", "data", "size"]}, {"file": "include/wave/geometry/src/estimation/FactorVariableBase.hpp", "symbols": ["FactorVariableBase"]}, {"file": "include/wave/geometry/src/core/storage/LeafStorage.hpp", "symbols": ["value"]}]}
{"id": "C57", "title": "The rotation and translation parts of a transform", "statement": "rotation() and translation() of an expression for a rigid transform evaluate to its rotation and its translation; of an expression for a rotation they are that same expression, and the zero translation. In both cases x * v and x.rotation() * v + x.translation() evaluate to the same vector. A Jacobian of translation() of a rotation with respect to anything written in it is an error, although the value is constant.", "quantifier": "all expressions, all leaf classes, all values", "why_tests_cant": "All expressions and representations; the tests read the parts of a few leaf objects and never differentiate the translation of a rotation.", "anchors": [{"file": "include/wave/geometry/src/geometry/base/TransformBase.hpp", "symbols": ["rotation", "translation"]}, {"file": "include/wave/geometry/src/geometry/base/RotationBase.hpp", "symbols": ["rotation", "translationBlock"]}, {"file": "include/wave/geometry/src/core/op/MemberAccess.hpp", "symbols": ["evalImpl", "jacobianImpl"]}]}
{"id": "C58", "title": "Leaves that map memory they do not own", "statement": "A leaf whose storage is an Eigen::Map reads and writes the mapped cells. Assigning an expression to it stores the value the expression had before, in exactly its cells, whatever cells it shares with the operands; objects in the same place show the new value, objects elsewhere their old one. Assigning a leaf of the very same class copies in place: this is right for every order of loads and stores exactly when the two are in the same place or share no cell. A copy of a mapped leaf maps the same cells; a map of constants cannot be assigned to. The Jacobian with respect to a mapped leaf is the derivative with respect to the mapped memory if no other operand shares its cells, and not otherwise.", "quantifier": "all leaf classes, all placements of objects in memory, all contents, all expressions, all orders of coefficient loads and stores", "why_tests_cant": "Overlap patterns, contents and copy orders are unbounded; the tests construct three mapped rotations and never overlap them.", "anchors": [{"file": "include/wave/geometry/src/core/storage/LeafStorage.hpp", "symbols": ["LeafStorage", "operator=", "value"]}, {"file": "include/wave/geometry/src/geometry/leaf/QuaternionRotation.hpp", "symbols": ["QuaternionRotation"]}, {"file": "include/wave/geometry/src/core/functions/PrepareOutput.hpp", "symbols": ["evaluateTo"]}, {"file": "test/rotation_misc_test.cpp", "symbols": ["constructRotationQMap"]}]}
{"id": "C59", "title": "The parts of a twist are live blocks of it", "statement": "rotation() and translation() of a twist leaf are leaves that show its first and last three coefficients at any later time. Assigning an expression to a part changes that part only, to the value the expression had before; parts of a constant twist cannot be assigned to; Twist(rr, t) has the parts rr and t. The Jacobian with respect to the twist of an expression that contains its parts, and no leaf of the class of the twist, is zero. std::swap exchanges two leaves of one class without common cells when they own their storage; when they are maps or blocks, both end up with the value of the second.", "quantifier": "all placements of twists and other leaves in memory, all contents, all expressions, all orders of coefficient loads and stores", "why_tests_cant": "Contents, placements and expressions are unbounded; the tests read the parts of a few twists and never write, swap or differentiate through them.", "anchors": [{"file": "include/wave/geometry/src/geometry/leaf/Twist.hpp", "symbols": ["Twist", "rotation", "translation"]}, {"file": "include/wave/geometry/src/core/storage/LeafStorage.hpp", "symbols": ["LeafStorage", "operator="]}]}
{"id": "C60", "title": "Floating-point evaluation stays within a computable bound of the exact value", "statement": "Evaluating an expression built from sums, differences, scalings, products, dot products, norms, compositions, inverses, actions and parts of rotations and rigid transforms stored as matrices or quaternions, and conversions of quaternions to matrices, gives a result within factor(e) - 1 of the exact value, relative to the lengths of the vectors for vectors and in absolute terms for rotations, where factor(e) is a product of one factor per operation that depends only on the unit roundoff and on the relative error of the stored leaves. An outcome exists; without rounding it is the exact value; inverses of rotations, parts and negations do not round. The product of k+1 rotation matrices is within 11 k u of the exact product and orthogonal to 24 k u; unit quaternions stay unit to 10 k u. Equalities of real arithmetic such as (x+y)+z = x+(y+z) do not hold for the computed values.", "quantifier": "all expressions of the class, all valid leaf values, all roundings with relative error at most u, all orders of summation and choices of fused multiply-adds", "why_tests_cant": "Tests compare a few values with a tolerance; they cannot bound the error for all values, expressions, compilers and vectorisations.", "anchors": [{"file": "include/wave/geometry/src/geometry/leaf/QuaternionRotation.hpp", "symbols": ["evalImpl"]}, {"file": "include/wave/geometry/src/geometry/leaf/MatrixRotation.hpp", "symbols": ["evalImpl"]}, {"file": "include/wave/geometry/src/geometry/base/RigidTransformBase.hpp", "symbols": ["evalImpl"]}, {"file": "include/wave/geometry/src/geometry/base/VectorBase.hpp", "symbols": ["evalImpl"]}]}
{"id": "C61", "title": "Metafunctions on type lists compute what they document", "statement": "concat joins one or more lists of one template; apply expands a final list; apply_each and apply_cartesian apply a template to each element or each pair in order; find gives the first index or -1; filter keeps the elements that satisfy the predicate in order; disjunction, conjunction, expanding_disjunction and first_satisfies decide at the first member that settles the answer and never instantiate later ones, with nested and empty lists expanded; make_index_sequence<N,S> is S..S+N-1. concat_if_unique joins two lists exactly if the second has no repeated element and none that is in the first, and concat_if_unique_many joins lists exactly if no element is in two. The search for conversions of a binary expression therefore tries no conversion, right conversions, left conversions, then pairs. Four sentences of the documentation are false: apply without a list expands a last argument that is any template instance; apply_each without a list is rejected; the second list of concat_if_unique is checked for repeated elements; concat_if_unique_many of three or more lists is rejected when one of the first two is false_type.", "quantifier": "all types, lists and packs, all predicates and tests including ones whose instantiation is an error", "why_tests_cant": "The compile-time checks in the tests cover a few concrete lists; laziness and rejection cannot be asserted in code that must compile.", "anchors": [{"file": "include/wave/geometry/src/util/meta/type_list.hpp", "symbols": ["concat", "apply", "apply_each", "apply_cartesian", "find", "concat_if_unique", "concat_if_unique_many", "expanding_disjunction", "filter"]}, {"file": "include/wave/geometry/src/util/meta/template_helpers.hpp", "symbols": ["conjunction", "disjunction", "first_satisfies"]}, {"file": "include/wave/geometry/src/util/meta/index_sequence.hpp", "symbols": ["make_index_sequence", "concat_integer_sequence"]}, {"file": "include/wave/geometry/src/core/functions/AddConversions.hpp", "symbols": ["first_directly_evaluable_conversion_binary"]}]}
{"id": "C62", "title": "Jacobians computed in floating point stay within a computable bound of the exact ones", "statement": "For an expression built from operations whose Jacobians need no division, the Jacobian returned by expr.jacobian(x), by the evaluator by type, by the evaluator by object, through dynamic nodes, and each block of reverse mode is within (factor - 1) * size of the exact Jacobian, column by column in forward modes and row by row in reverse mode. The size bounds the columns (rows) of the exact Jacobian and is computed from the values along the paths to x; the factor is a product of one factor per operation that depends only on the unit roundoff and the relative error of the stored leaves. The Jacobians are built from the computed, not the exact, values of subexpressions, and multiplications by identity and cross matrices use the library's shortcuts. Outcomes exist; without rounding they are the exact results; the bound carries over to the derivative of the expression. The Jacobian of a product of k+1 rotation matrices with respect to any factor is within 22 k u of the exact one. Forward and reverse mode, equal in exact arithmetic, can differ: for a*(b*(c*x)) in double precision they return different numbers.", "quantifier": "all expressions of the class, all valid leaf values, all targets, all roundings with relative error at most u, all orders of summation and choices of fused multiply-adds", "why_tests_cant": "Tests compare a Jacobian with a finite difference to a tolerance of 1e-6 or so, for a few values; they cannot bound the error for all values, expressions, evaluators and vectorisations.", "anchors": [{"file": "include/wave/geometry/src/core/functions/JacobianEvaluator.hpp", "symbols": ["jacobian"]}, {"file": "include/wave/geometry/src/core/functions/TypedJacobianEvaluator.hpp", "symbols": ["jacobian"]}, {"file": "include/wave/geometry/src/core/functions/ReverseJacobianEvaluator.hpp", "symbols": ["jacobian"]}, {"file": "include/wave/geometry/src/core/functions/DynamicJacobianEvaluator.hpp", "symbols": ["jacobian"]}, {"file": "include/wave/geometry/src/geometry/base/TransformBase.hpp", "symbols": ["rightJacobianImpl"]}, {"file": "include/wave/geometry/src/geometry/op/Compose.hpp", "symbols": ["leftJacobianImpl", "rightJacobianImpl"]}, {"file": "include/wave/geometry/src/geometry/base/VectorBase.hpp", "symbols": ["leftJacobianImpl", "rightJacobianImpl"]}]}
{"id": "C63", "title": "Exactly which expressions can be put behind a dynamic node", "statement": "makeProxy(e) (equally makeDynamic(e), and Dynamic<E>) compiles exactly if e does, e takes no translation() of a rotation, and the derivative of e with respect to no handle inside it is the identity by construction. So a handle of a handle, a product of rotations or rigid transforms whose left factor is a handle, a sum with a handle, and a difference with a handle as minuend are rejected, while rotating or transforming by or of a handle, a handle as right factor, and negated, inverted, normalised, scaled, box-plus and box-minus operands are accepted; a vector can be rotated through any number of handles, a new handle at every step. Negating or inverting twice makes any differentiable expression wrappable without changing its meaning. In what compiles, reverse mode with an adjoint of 1, 2, 3 or 6 rows calls the overload of dynReverse for that number of rows at every handle, nested ones included; the run-time-sized fallback is never used from the top. Frames and frame casts do not matter; Identity * vector cannot be wrapped.", "quantifier": "all expressions, of any size and nesting of dynamic nodes, all leaf classes, all numbers of rows of the adjoint", "why_tests_cant": "A test cannot contain an expression that does not compile, and the tests only wrap leaves and rotated vectors; the condition concerns overload resolution for every nesting of expressions.", "anchors": [{"file": "include/wave/geometry/src/dynamic/DynamicBase.hpp", "symbols": ["dynReverse", "dynReverseDynamic"]}, {"file": "include/wave/geometry/src/dynamic/Dynamic.hpp", "symbols": ["dynReverseImpl", "makeDynamic"]}, {"file": "include/wave/geometry/src/dynamic/Proxy.hpp", "symbols": ["DynamicReverseJacobianEvaluator", "makeProxy"]}, {"file": "include/wave/geometry/src/util/math/IdentityMatrix.hpp", "symbols": ["operator*"]}]}
{"id": "C64", "title": "Functions that return expressions: locals must be moved, and then nothing dangles", "statement": "A function that names subexpressions in local variables and returns an expression, or the members of a makeCompound call, and that moves every local it mentions (std::move) without using it again, returns objects which at any later time evaluate to the value of the expression with the definitions of the locals written in place, although the locals and temporaries are dead; nothing left by the call refers to anything but variables the caller had declared before. If the arguments are leaves, the result can be evaluated as long as they live and follows their current values (RangeBearingFunctor of the tests is an instance). A local used by name is stored by reference, so evaluating the returned expression is undefined. residualVector(e) returns references to temporaries: for any argument that is not a variable, and for any moved local, using the result is undefined; only the function's own arguments can be returned that way. makeCompound, unlike operators, stores a const prvalue by value.", "quantifier": "all functions (any number of locals and results, any expressions), all caller programs, all later statements, all operators and values", "why_tests_cant": "The claim is about every function and all uses of its result after it returned; dangling references are undefined behaviour, which a test may not notice.", "anchors": [{"file": "include/wave/geometry/src/core/storage/NaryStorage.hpp", "symbols": ["makeCompound"]}, {"file": "include/wave/geometry/src/core/storage/RefSelector.hpp", "symbols": ["arg_selector", "arg_t"]}, {"file": "include/wave/geometry/src/estimation/Factor.hpp", "symbols": ["residualVector", "Factor"]}, {"file": "test/estimation/test_factors.hpp", "symbols": ["RangeBearingFunctor"]}]}
{"id": "C65", "title": "Differentiating with respect to a sub-expression", "statement": "evalWithJacobians(p) also takes a p that is not a leaf. It is accepted exactly when p is a leaf or a single operation on named constant leaves and a sub-expression of the same structure occurs in the expression (jacobian(p) takes leaves only). If p itself occurs, the matrix returned is the derivative of the expression with respect to the value of p, all occurrences of p moving together and everything else held fixed; for leaves it is what C22 says. In expressions with unique leaf types the answer depends on the type of p only, so another object of that type gets the same matrix. The evaluators that search by address (dynamic and numerical) never find p, because evaluation works on a prepared copy of the tree: their result is zero.", "quantifier": "all expressions without dynamic nodes, all targets written with the operators, all memories (derivative: regular points)", "why_tests_cant": "All tree shapes, all ways of passing operands; the tests differentiate with respect to leaves only.", "anchors": [{"file": "include/wave/geometry/src/core/base/ExpressionBase.hpp", "symbols": ["evalWithJacobians", "jacobian"]}, {"file": "include/wave/geometry/src/core/functions/TypedJacobianEvaluator.hpp", "symbols": ["TypedJacobianEvaluator", "evaluateWithTypedJacobians", "evaluateWithJacobiansAuto"]}, {"file": "include/wave/geometry/src/core/functions/JacobianEvaluator.hpp", "symbols": ["JacobianEvaluator", "evaluateWithJacobians"]}, {"file": "include/wave/geometry/src/core/functions/PrepareExpr.hpp", "symbols": ["prepareExpr"]}, {"file": "include/wave/geometry/src/core/functions/IsSameType.hpp", "symbols": ["contains_same_type"]}]}
{"id": "C66", "title": "Plain numbers in expressions", "statement": "A built-in number, named or a temporary, floating-point or integer, may be one operand of + - * / with a scalar expression and of * / with a vector expression (except that an integer cannot be on the left of + or - with a scalar expression). The value is that of the expression with a Scalar object holding the number: a named number is read at evaluation, a temporary is kept by value. The Jacobians returned with respect to the numbers of type double and the other objects of the expression are the derivatives, and evalWithJacobians() is defined for all values.", "quantifier": "all expressions, all mixtures of named numbers and temporaries of all arithmetic types, all memories (derivative: regular points)", "why_tests_cant": "The tests use double operands and a few values; the wrong results need an integer operand and a derivative.", "anchors": [{"file": "include/wave/geometry/src/util/macros.hpp", "symbols": ["WAVE_OVERLOAD_OPERATORS_FOR_SCALAR_LEFT", "WAVE_OVERLOAD_OPERATORS_FOR_SCALAR_RIGHT"]}, {"file": "include/wave/geometry/src/geometry/leaf/Scalar.hpp", "symbols": ["Scalar"]}, {"file": "include/wave/geometry/src/geometry/base/ScalarBase.hpp", "symbols": ["leftJacobianImpl", "rightJacobianImpl", "evalImpl"]}, {"file": "include/wave/geometry/src/geometry/base/VectorBase.hpp", "symbols": ["evalImpl", "rightJacobianImpl"]}]}
{"id": "C67", "title": "The numerical Jacobian in floating point is accurate up to rounding divided by the step", "statement": "In floating-point arithmetic evaluateNumericalJacobian() returns, for a vector, scalar or point as target and as value, columns that differ from the exact difference quotients (so from the columns of the Jacobian, if the expression is affine in the target) by at most the errors of the two evaluations divided by the step, plus two roundings of the quotient; for R * v in double precision by at most (1 + |v|) / 2^22. The step is the same for all targets: it is lost, and zero returned, when a coefficient of the target is 2^28 or more.", "quantifier": "all expressions without divisions and transcendental functions, all memories, all roundings with bounded relative error, all orders of summation, all non-zero steps", "why_tests_cant": "Tests compare with a tolerance at a few random points of moderate size.", "anchors": [{"file": "include/wave/geometry/src/core/functions/NumericalJacobian.hpp", "symbols": ["evaluateNumericalJacobianImpl", "evaluateWithDeltaImpl", "EvaluatorWithDelta"]}]}
{"id": "C68", "title": "Quotients, normalised vectors, acos and exp in floating point are accurate up to the condition of their operand", "statement": "Evaluating an expression with s / t, v / s, v.normalized(), acos(s) or exp(phi) in floating-point arithmetic gives a value within a bound that grows with the size of each divisor's error relative to the divisor (normalised vector, distance of the argument of acos from 1). If every divisor is larger than its error and every argument of acos is inside (-1, 1) by more than its error, then no divisor is rounded to zero and no NaN appears: there is a finite result. In double precision v.normalized() is within 6 * 2^-53 of v / |v| for every nonzero v, and exp(phi) is within 2^-42 + (1 + |phi|) * 2^-49 of the unit quaternion of the rotation for every phi (without the first term when |phi|^4 >= 2^-50, where the small-angle formula is not used). Without the condition the result may be infinite although the exact value is finite: x / ((x + y) - x) with x = 1, y = 2^-53.", "quantifier": "all expressions without exp of twists, log, angle-axis rotations and conversions from matrices to quaternions, all memories, all roundings with bounded relative error, all orders of summation, all implementations of acos, sin and cos with bounded relative error", "why_tests_cant": "Tests compare a few well-conditioned random values with a tolerance.", "anchors": [{"file": "include/wave/geometry/src/geometry/base/ScalarBase.hpp", "symbols": ["evalImpl", "Divide", "ACos"]}, {"file": "include/wave/geometry/src/geometry/base/VectorBase.hpp", "symbols": ["evalImpl", "Normalize", "ScaleDiv"]}, {"file": "include/wave/geometry/src/geometry/leaf/RelativeRotation.hpp", "symbols": ["evalImpl", "ExpMap"]}]}
{"id": "C69", "title": "Threads may evaluate and differentiate dynamic expressions concurrently if and only if they share no node", "statement": "Any number of threads, each making a sequence of calls that evaluate or differentiate (eval, jacobian with respect to a typed target, dynamic jacobian by address, reverse jacobians of all leaves) expressions containing dynamic handles, get the values and Jacobians of the leaf values for every schedule if no dynamic node is reached from two threads; no thread waits for another or uses a destroyed evaluator, and the number of accesses each needs does not depend on the schedule. If calls of two threads reach a common node, whichever functions they are, there is a schedule with undefined behaviour, although all of these functions are const. For reverse differentiation that is so even if the first thread's evaluation has finished before the second thread starts: its derivative sweep reads the stored evaluator again.", "quantifier": "all expressions, all graphs of nodes of any nesting, all numbers of threads and calls, all schedules, all earlier contents of the stored evaluators", "why_tests_cant": "All schedules; no test uses threads.", "anchors": [{"file": "include/wave/geometry/src/dynamic/Dynamic.hpp", "symbols": ["lazy_evaluator", "constructEvaluator", "evaluator", "dynEvaluate", "dynJacobian", "dynReverseImpl"]}, {"file": "include/wave/geometry/src/dynamic/Proxy.hpp", "symbols": ["Evaluator", "DynamicJacobianEvaluator", "JacobianEvaluator", "DynamicReverseJacobianEvaluator"]}]}
{"id": "C70", "title": "Leaves constructed from Eigen objects, and the argument lists that do not work", "statement": "A rotation leaf of any class constructed from an Eigen quaternion, angle-axis or 3x3 matrix, a relative rotation, translation or point from a row, a column or three numbers, a twist from six numbers or two columns, a rigid transform of either class from an Eigen rotation and a vector, is valid if the arguments are and represents the same rotation, vector or motion, whichever classes the arguments have and whether they are passed as themselves or through a reference to an Eigen base class; FromAngleAndAxis gives the rotation vector about the normalised axis. There are exactly two exceptions. A compact rigid transform from a rotation object and a vector that are both references to Eigen base classes selects a constructor that delegates to itself. A row vector compiles, but writes outside the storage, as either half of a twist and as the translation of a matrix transform (a translation or a compact transform takes it correctly). Every other argument list is rejected by the compiler; no call is ambiguous.", "quantifier": "all leaf classes, all argument lists of Eigen rotations, fixed-size matrices of any size and numbers, all values", "why_tests_cant": "All sizes and static types of the arguments; the tests construct transforms from concrete classes only, so the self-delegating constructor is never instantiated.", "anchors": [{"file": "include/wave/geometry/src/geometry/leaf/CompactRigidTransform.hpp", "symbols": ["CompactRigidTransform"]}, {"file": "include/wave/geometry/src/geometry/leaf/MatrixRigidTransform.hpp", "symbols": ["MatrixRigidTransform"]}, {"file": "include/wave/geometry/src/core/storage/CompoundLeafStorage.hpp", "symbols": ["CompoundLeafStorage"]}, {"file": "include/wave/geometry/src/geometry/leaf/Twist.hpp", "symbols": ["Twist"]}, {"file": "include/wave/geometry/src/geometry/leaf/QuaternionRotation.hpp", "symbols": ["QuaternionRotation"]}, {"file": "include/wave/geometry/src/geometry/leaf/RelativeRotation.hpp", "symbols": ["FromAngleAndAxis", "setFromAngleAndAxis"]}]}
{"id": "C71", "title": "Matrices filled block by block are filled completely and in the right places", "statement": "The Jacobians of the inverse, the composition, the exponential and the logarithm of rigid transforms and twists, of a transformed point, and of .rotation() and .translation() are created without initial values and filled by assignments to blocks, corners, strips of columns or by a comma initialiser. Each of these sequences of assignments is accepted by the size and range checks, sets every coefficient of the 6x6 or 3x6 matrix, and leaves each 3x3 part equal to the corresponding block of the derivative (rotation before translation, in rows and in columns). The same holds of the nine coefficients of a cross matrix and the four of the quaternion returned by exp. In general, for all lists of block sizes, assigning a block of the right size to every blockWrt<I, J>, in any order and with repetitions, sets every coefficient of a BlockMatrix and leaves each part as assigned; if a non-empty pair is left out some coefficient stays unset; colsWrt and rowsWrt are the strips of these blocks, and indices past the list are rejected.", "quantifier": "all values of the operands; all lists of block sizes, all blocks, all orders of assignment", "why_tests_cant": "A coefficient that is never set often happens to be zero; all sizes and orders.", "anchors": [{"file": "include/wave/geometry/src/core/storage/BlockMatrix.hpp", "symbols": ["BlockMatrix", "blockWrt", "colsWrt", "rowsWrt"]}, {"file": "include/wave/geometry/src/geometry/base/TransformBase.hpp", "symbols": ["RotationGetter", "TranslationGetter", "rightJacobianImpl", "leftJacobianImpl"]}, {"file": "include/wave/geometry/src/geometry/base/RigidTransformBase.hpp", "symbols": ["jacobianImpl", "TangentBlocks"]}, {"file": "include/wave/geometry/src/geometry/leaf/Twist.hpp", "symbols": ["jacobianImpl"]}, {"file": "include/wave/geometry/src/util/math/CrossMatrix.hpp", "symbols": ["CrossMatrix"]}, {"file": "include/wave/geometry/src/geometry/leaf/RelativeRotation.hpp", "symbols": ["evalImpl"]}]}
{"id": "C72", "title": "The IMU preintegration residual equals the hand-derived formulas for all inputs", "statement": "The residual log(inverse(dR * exp(w)) * inverse(Ri) * Rj), with dR in <I, J>, w in <J, J, J>, Ri in <W, I> and Rj in <W, J>, is accepted and labelled <J, J, J> for all frames. Its value is the rotation vector of (dR exp(w))^-1 Ri^-1 Rj, of length equal to that rotation's angle, for rotations of every class, when w is zero or not too small and the rotation is the identity, or neither too small nor a half turn. For rotation matrices evalWithJacobians(dR, w, Ri, Rj) returns, with this value, exactly the four matrices the repository's test derives by hand: J_log (-t0), J_R dR J_exp, -J_log t1 and J_log t1, and away from the identity each is the derivative of the residual with respect to its object.", "quantifier": "all frames, all rotations and rotation vectors (all matrices for the returned formulas), all distinct rotation objects", "why_tests_cant": "The test compares one random draw, to a tolerance, with formulas that share the library's code shape; it cannot show that they are the derivative.", "anchors": [{"file": "test/imu_preint_test.cpp", "symbols": ["compareToHand", "jacOfExpMap", "jacOfLogMap"]}, {"file": "include/wave/geometry/src/core/base/ExpressionBase.hpp", "symbols": ["evalWithJacobians"]}, {"file": "include/wave/geometry/src/geometry/leaf/MatrixRotation.hpp", "symbols": ["Inverse", "Compose", "LogMap"]}, {"file": "include/wave/geometry/src/geometry/leaf/RelativeRotation.hpp", "symbols": ["ExpMap", "jacobianImpl"]}, {"file": "include/wave/geometry/src/geometry/op/LogMap.hpp", "symbols": ["LogMap"]}]}
{"id": "C73", "title": "Chains of rotations of any length: value, labels and Jacobians", "statement": "For every n, R_0 * R_1 * … * R_n * v with R_i labelled <F_i, F_{i+1}> and v labelled <F_{n+1}, G, H> is accepted and labelled <F_0, G, H>. For every mixture of classes of valid rotations its value is v2 = R_0 R_1 … R_n v. For rotation matrices and for unit quaternions, evalWithJacobians(R_0, …, R_n, v) of distinct objects returns v2, crossMatrix(-v2) R_0 … R_{i-1} for each i, and R_0 … R_n, as in the hand-written benchmark; it evaluates each of the n + 1 operations once; evalWithJacobians() (reverse mode), offered when no two rotations carry the same labels, returns the same. An object standing at several places gets the sum of the matrices for these places. For distinct valid rotations these matrices are the derivatives, without exceptional points.", "quantifier": "all lengths, all frames, all valid rotations of the classes named, all vectors, all addresses", "why_tests_cant": "The benchmarks write out one to ten rotations, and compare nothing.", "anchors": [{"file": "benchmarks/rotate_chain/rotate_chain_hand_bench.cpp", "symbols": ["Hand1", "Hand2", "Hand3"]}, {"file": "benchmarks/rotate_chain/rotate_chain_wave_bench.cpp", "symbols": ["RotateChain", "wave1"]}, {"file": "include/wave/geometry/src/core/base/ExpressionBase.hpp", "symbols": ["evalWithJacobians"]}, {"file": "include/wave/geometry/src/geometry/leaf/MatrixRotation.hpp", "symbols": ["Compose", "Rotate"]}, {"file": "include/wave/geometry/src/geometry/leaf/QuaternionRotation.hpp", "symbols": ["Compose", "Rotate"]}, {"file": "include/wave/geometry/src/geometry/op/Rotate.hpp", "symbols": ["Rotate"]}]}
{"id": "C74", "title": "The logarithm of a rotation in floating-point arithmetic", "statement": "Let u be the relative rounding error of an operation, m that of std::acos and std::sin, eps the threshold, all at most 1/1000. For a rotation vector phi of length at most 2 pi / 3 and a matrix whose coefficients are within eta <= 1/1000 of exp(phi), every outcome of log of the matrix is within 21 eta + 92 u + 32 m + 6 eps of phi in each coefficient, in both branches and also if the trace is rounded so that the argument of std::acos exceeds one. In double precision: 95 * 2^-52 for the rounded matrix of the rotation; 2^-34 for log(exp(phi)) through the quaternion and the converted matrix, and 2^-39 if |phi|^4 >= 2^-50. An outcome exists for every matrix. Without rounding the outcomes are the values of the exact model. For a symmetric matrix, such as an exact half turn, the only outcome is the zero vector.", "quantifier": "all rotation vectors up to 120 degrees, all perturbed matrices, all roundings, all libm implementations within the error, all summation orders of the trace", "why_tests_cant": "The tests take random rotations and compare with a tolerance; they take neither the worst rounding nor an argument of acos beyond one, nor half turns.", "anchors": [{"file": "include/wave/geometry/src/geometry/leaf/MatrixRotation.hpp", "symbols": ["LogMap"]}, {"file": "include/wave/geometry/src/util/math/math.hpp", "symbols": ["uncrossMatrix"]}, {"file": "include/wave/geometry/src/geometry/leaf/RelativeRotation.hpp", "symbols": ["ExpMap"]}]}
{"id": "C75", "title": "Names of expressions and types, for debugging", "statement": "With debug.hpp: an operation whose demangled type is q1::…::qk::Name<args> is called Name whatever args is, a leaf is called Name<args>, a conversion 'Conversion to Name<args>'; the name of an operation that is not a template is kept with its qualifiers. PrintExpressionFunctor writes, for 0 <= depth < 2^30, 2*depth blanks, ' - ', the name and a newline; for -2^30 <= depth < 0 it throws std::length_error; otherwise 2*depth overflows. getTypeString<T> writes 'const' (without a blank) if T is const and not a reference, the name without qualifiers, and '&' or '&&'. Consequently a reference to const is printed like a reference to non-const, and const X like a class named constX.", "quantifier": "all names, all lists of qualifiers, all template arguments, all depths", "why_tests_cant": "The printing code has no tests; the failures are in names and depths nobody tries.", "anchors": [{"file": "include/wave/geometry/src/debug/PrintExpression.hpp", "symbols": ["getTemplateName", "getTypeString", "getExpressionTypeName", "PrintExpressionFunctor"]}, {"file": "include/wave/geometry/debug.hpp", "symbols": ["PrintExpression.hpp"]}]}
{"id": "C76", "title": "Factors share their variables", "statement": "In every program that makes variables, copies, moves and resets its pointers to them, makes, copies, moves and destroys factors, and writes arrays through factors: the counter of a variable is the number of pointers to it (in the program and in living factors); its destructor has run once if it was made and nothing points to it, otherwise never; begin() to end() of a living factor gives null pointers or pointers to living variables. A new factor iterates over the pointers it was made from, in order, and size() is their number; pointers moved into it are null afterwards. The variables of a factor change only when the factor is moved from (same size, all null) or destroyed; a copy shares them. (*(f.begin() + i))->data()[j] = x is defined exactly if the pointer is not null and j is less than size() of the variable's array, and is then seen through every pointer to the variable and nowhere else.", "quantifier": "all programs of these operations of any length, all states reached, all indices and values", "why_tests_cant": "Leaks, double destruction and dangling pointers depend on the order of creation and destruction; the tests make one factor.", "anchors": [{"file": "include/wave/geometry/src/estimation/FactorBase.hpp", "symbols": ["begin", "end", "size", "const_iterator"]}, {"file": "include/wave/geometry/src/estimation/Factor.hpp", "symbols": ["variable_ptrs", "makeFactor", "begin", "end", "size"]}, {"file": "include/wave/geometry/src/estimation/FactorVariableBase.hpp", "symbols": ["data", "size"]}, {"file": "include/wave/geometry/src/estimation/FactorVariable.hpp", "symbols": ["data", "size"]}]}
{"id": "C77", "title": "Chains of rigid transforms of any length: value, labels and Jacobians", "statement": "For every n, T_0 * T_1 * … * T_n * p with T_i labelled <F_i, F_{i+1}> and p labelled <F_{n+1}, G, H> is accepted and labelled <F_0, F_0, H>. For every mixture of valid MatrixRigidTransform and CompactRigidTransform objects the value is p moved by T_n, then by T_{n-1}, …, then by T_0. evalWithJacobians(T_0, …, T_n, p) of distinct objects returns this value; for each T_i the 3x6 matrix R_0 … R_{i-1} [crossMatrix(-w_i), I], where w_i is p moved by T_n, …, T_i and R_j is the rotation of T_j; and for p the matrix R_0 … R_n; it evaluates each of the n + 1 operations once. evalWithJacobians() (reverse mode), offered when no two transforms have the same class and labels, returns the same. An object standing at several places gets the sum of the matrices for these places. For distinct valid transforms these matrices are the derivatives, without exceptional points.", "quantifier": "all lengths, all frames, all mixtures of the two classes, all valid transforms, all points, all addresses", "why_tests_cant": "The tests compose two transforms; translations and the block structure of the adjoint accumulate along a chain, and a mixed product goes through a conversion at every change of class.", "anchors": [{"file": "include/wave/geometry/src/geometry/base/TransformBase.hpp", "symbols": ["Compose", "Transform"]}, {"file": "include/wave/geometry/src/geometry/base/RigidTransformBase.hpp", "symbols": ["Compose", "Transform"]}, {"file": "include/wave/geometry/src/geometry/op/Transform.hpp", "symbols": ["Transform"]}, {"file": "include/wave/geometry/src/geometry/op/Compose.hpp", "symbols": ["Compose"]}, {"file": "include/wave/geometry/src/core/base/ExpressionBase.hpp", "symbols": ["evalWithJacobians"]}]}
{"id": "C78", "title": "The exponential of a twist in floating-point arithmetic", "statement": "Let u be the relative rounding error of an operation, m that of std::sin and std::cos, eps the threshold, all at most 1/1000, and theta the length of the rotation part. Every outcome of exp of a twist has the last row 0 0 0 1; its rotation block is within (80 u + 3 m)(1 + theta) + 2 eps (Frobenius norm) of the rotation of the motion generated by the twist, and its translation within (210 u + 4 m + 2 m / sqrt(eps) + 2 sqrt(eps)) |v| of the translation of the motion, v being the translation part; within (210 u + 4 m + 2 m / theta) |v| if theta^2 > 1.01 eps. In double precision: 45 (1 + theta) 2^-52 and 2^-23 |v|; exp(x) * p is within 51 (1 + theta) 2^-52 |p| + 2^-22 |v| of the moved point. That only half of the digits of the translation are guaranteed is the code's doing: if (1 + 4 u) theta^2 <= eps, turning about the first axis while moving along the second with velocity one, no outcome moves along the third axis, while the motion moves by more than theta / 3. An outcome exists for every twist. Without rounding the outcomes are the values of the exact model.", "quantifier": "all twists, all roundings, all libm implementations within the error, all summation orders, with and without fused multiply-add", "why_tests_cant": "The tests compare random twists of moderate size with a tolerance; they take neither the worst rounding nor angles next to the switch between the formulas, where 1 - cos(theta) cancels or is replaced by zero.", "anchors": [{"file": "include/wave/geometry/src/geometry/leaf/Twist.hpp", "symbols": ["ExpMap"]}, {"file": "include/wave/geometry/src/util/math/CrossMatrix.hpp", "symbols": ["crossMatrix"]}, {"file": "include/wave/geometry/src/geometry/base/TransformBase.hpp", "symbols": ["Transform"]}]}
{"id": "C79", "title": "The linear velocity from the logarithm of a rigid transform, in floating-point arithmetic", "statement": "Let u be the relative rounding error of an operation, m that of std::sin and std::cos, eps the threshold, all at most 1/1000. Take the motion generated by a twist (omega, v), theta = |omega|, and let t be its translation. From omega and t the logarithm computes a linear velocity. If 0 < theta <= pi and 100 m + 1100 u theta <= theta^2, every outcome is finite and within (360 u + 15 m + 34 m / theta^2 + 730 u / theta + eps) |t| of v. If (1 + 4 u) theta^2 <= eps, within (70 u + eps) |t|. In double precision, for 2^-20 <= theta <= pi, within (200 + 365 / theta + 34 / theta^2) 2^-52 |t|. Next to the switch of formulas nothing of the kind holds, and this is the code's doing: for the angle with theta^2 = 81/64 eps about the first axis and t along the second axis with length one, if the error of std::cos may be eps / 4 (half the spacing of the numbers next to one, so a correctly rounded cosine may) there is an outcome off by more than 1/5; and if it may be 0.7 eps (less than twice the spacing of the numbers below one) there is an outcome with a division by zero, hence not finite. Without rounding the outcomes are the values of the exact model.", "quantifier": "all twists with an angle up to a half turn, all roundings, all libm implementations within the error, all summation orders, with and without fused multiply-add", "why_tests_cant": "The tests compare random transforms of moderate angle with a tolerance; angles next to the square root of the machine epsilon, where 1 - cos(theta) has no correct digit and is divided by, have probability close to zero, and the worst rounding there is not taken.", "anchors": [{"file": "include/wave/geometry/src/geometry/base/RigidTransformBase.hpp", "symbols": ["LogMap"]}, {"file": "include/wave/geometry/src/util/math/CrossMatrix.hpp", "symbols": ["crossMatrix"]}]}
