# Design

A Lean 4 model of trbabb/geomc (C++ template library under `/repo/geomc`) and proofs of the
properties listed in `properties.jsonl`.

## Trusted base

- Lean 4.33.0's kernel, and the axioms `propext`, `Classical.choice`, `Quot.sound` (Mathlib's
  usual three). No axioms are added; no `sorry`, `native_decide`, `bv_decide`.
- The hand transcription from C++ to Lean. Each definition cites the file and lines it models.
- Real/floating arithmetic is modelled as exact arithmetic in a field (ordered where the code
  compares; the reals where it takes square roots or trigonometric functions). Rounding,
  overflow to infinity and NaN are **not** modelled, except where a definition says so
  (the random float assembly, the bit-level code, the product formulas and vectors of C95, C104 and C106, where every
  operation is rounded to p bits, and C108 and C109, where numbers may be infinite or NaN with the semantics of IEEE 754
  and a rounded result may overflow). The compiler is trusted to follow IEEE 754 there: no -ffast-math.
- `index_t` / `size_t` arithmetic is modelled by Int / Nat without overflow; C++ `/` and `%` are
  `Int.tdiv` / `Int.tmod`. Fixed width words matter in hashing and random numbers and are BitVec there.
- Undefined behaviour that the model can reach (reading a dead or out-of-range slot, `% 0`) is a
  distinct outcome (`none` / `error`), never a default value.
- Where the model has a field division, each theorem carries the hypothesis that the divisor is nonzero.
- Not modelled: templates/overload resolution, exceptions, iostream output, allocation failure,
  threads, compile-time dimension checks.

## Layout

`lean/Verif/<Area>/Model.lean` (definitions with citations), `Lemmas.lean` (helpers),
`Props.lean` (property theorems and concrete instances).

## Disagreements between the code and the property

Where the code violates a property, a theorem `..._refuted` proves the negation on a concrete
witness and a theorem `..._partial` proves the part which does hold.

## Plan per property

- **C01** positive_mod is the mathematical modulus: Int model with C++ truncating `%` (Int.tmod); division by zero is a distinct `none`. Prove range and congruence; real version via Int.floor. *Status: partial.* Holds for integers with 2b-1 <= max int, unsigned b <= 2^31, and reals. C01_large_modulus_refuted: the code adds b before reducing, so for int a>=0 and b above 2^30 the sum overflows (undefined), and unsigned wraps to a wrong value.
- **C02** ceil_div and floor_div round as documented: Int model with Int.tdiv. Prove on the exact domain where the trick is right; refute by a witness elsewhere (code bug). *Status: partial.* ceil_div/floor_div are right exactly on the domain given by the iff theorems; C02_refuted has witnesses with wrong signs of operands.
- **C03** clamp and is_power_of_two: clamp over any linear order; is_power_of_two over Nat with bitwise and. *Status: proved.*
- **C04** N-dimensional linear interpolation: Recursion over dim on a table `Nat -> K`, K a field; induction on dim. *Status: proved.*
- **C05** N-dimensional cubic interpolation: Same recursion with base 4. *Status: proved.*
- **C06** quadratic_solve returns exactly the real roots: Model over the reals with Real.sqrt. *Status: proved.*
- **C07** angle_to is the shortest signed rotation: Model over the reals with floor-based modulus. *Status: proved.*
- **C08** Deque is a double ended queue over every history: State machine with slots Option (live/dead), head, size, capacity; every slot access returns an error outcome if dead/out of range; refinement to List by invariant over operation lists. *Status: proved.*
- **C09** Deque copies, moves and compares faithfully: Same state machine with two deques; copy constructor has a buffer-size bug: refute and prove under the guard. *Status: partial.* The copy constructor allocates a buffer of the source's size but reports the source's capacity when the source lives on the heap: C09_copyNew_refuted. Proved: copies when capacity matches, assignment, moves, ==.
- **C10** SmallStorage never touches a dead or out-of-range slot: Slot liveness model as for Deque; `_ensure_capacity` moves dead slots: refute; prove the safe histories. *Status: partial.* Every growth beyond the inline capacity moves onto unconstructed heap slots: C10_growth_refuted shows each such history is undefined; move construction of a heap-backed storage also refuted. Proved: all histories which stay within the reserved capacity.
- **C11** hash_combine loses no information from either side's argument: BitVec at any width; injectivity + surjectivity in h1. *Status: proved.* The first argument is not bijective: C11_first_argument_refuted (not part of the claim).
- **C12** Structured hashes respect equality and order of combination: Folds over lists of BitVec. *Status: proved.* C12_dual_refuted: the Dual digest includes the derivative which == ignores (see C63).
- **C13** SipHash is SipHash-2-4 on the full message: BitVec 64 state; padding/word parsing over List of bytes with out-of-bounds outcome; round inverse. *Status: proved.*
- **C14** Bounded integers are in range and unbiased: Nat/BitVec 32 model of the rejection test; counting argument. *Status: partial.* Range and termination proved for every bound. Exact uniformity proved for bounds up to 3/4 of the word range and refuted for every larger bound (C14_biased_refuted). For signed types of every width w lo=hi, spans >= 2^(w-1) and the least integer as a bound are undefined in the code (C14_signed_undefined); all other ranges are answered (C14_signed_defined).
- **C15** Random floats are in the unit interval: Generator as a stream of words; float assembled as rational from exponent/mantissa; loop by recursion on the exponent. *Status: proved.* The value 1.0 itself is attainable (example).
- **C16** permute is an exact uniform shuffle: Choices as a dependent list of Fin; result as list; bijectivity by induction. *Status: proved.*
- **C17** Xoshiro256++ state evolution: BitVec 64 x4 with explicit inverse step. *Status: proved.* The other two seeding functions can yield the all-zero state: C17_other_seeds_refuted; the one with an entropy source for exactly one quadruple (C17_entropy).
- **C18** LCRand and MTRand progress safely and deterministically: BitVec 64 LCG; order of affine map; MT table as Array with bounds outcome. *Status: partial.* Period, table safety and the MT recurrence proved for the word streams. C18_bits: rand<bool> gives every bit of the words in order. C18_reseed_refuted: rseed keeps the buffered bits, so the stream of rand<bool>/rand<float> is not reproduced by re-seeding.
- **C19** GridIterator visits each cell once in order: Positions as integer lists with carry loop; prove via mixed radix ordinal. *Status: partial.* Proved for every region given as a Rect and for the exclusive-bound constructor in two or more dimensions. C19_exclusive_ctor_1d_refuted: the one dimensional specialisation adds 1 to the exclusive bound instead of subtracting it, so it visits two cells too many.
- **C20** GridIterator random access agrees with stepping: Same model; decrement/advance bugs refuted, correct sub-cases proved. *Status: partial.* C20_decrement_iff: --(++it)==it exactly when no row boundary is crossed (the borrow stores hi-1 instead of hi); C20_advance_refuted: += ignores the current position and the region's lower corner. Proved: one dimension, and advancing from begin() of regions at the origin.
- **C21** Flat matrix layouts address every element exactly once: Int/Nat index arithmetic, TransposeIterator offset model. *Status: proved.* Shapes with no element divide by zero: C21_empty_undefined.
- **C22** Raster addressing stays in bounds and follows the edge rule: Int model of the three edge policies + mixed radix index. *Status: partial.* Proved for clamp, periodic and constant edges with positive extents and mirrored edges with extents above 1. C22_mirror_extent_one_refuted: a mirrored axis with a single sample divides by zero.
- **C23** Raster domain mapping puts the domain corners on the extreme samples: Rational model of the mapping; refute (extent vs extent-1). *Status: partial.* C23_high_corner_refuted: to_gridspace scales by extent instead of extent-1, so the high corner lands one past the last sample. C23_default_domain_refuted: also with the default domain. Proved: low corner for all edges; high corner with clamped edges.
- **C24** Spherical harmonic coefficients are indexed bijectively: Nat/Int index model; coefficient arrays as functions. *Status: partial.* Indexing, dot, += and *= proved. C24_normalize_refuted: normalize never touches the constant band, the only one with a non-zero integral.
- **C25** Matrix products equal the mathematical product: Loops as folds over index ranges into Mathlib Matrix entries over a commutative semiring; equality with Matrix.mul. diag*mtx and perm*perm bugs refuted. *Status: partial.* Proved: general products and mul_acc, vector products, permutation with matrix/vector/permutation, and diagonal products where the shapes allow. Refuted: matrix times a wide diagonal (padding columns read past the diagonal), diagonal times matrix (multiplies the diagonal by itself: never reads the right operand), diagonal times diagonal with more rows than columns, permutation times permutation into a general matrix (writes the inverse).
- **C26** transpose and matrix element-wise operations: Functional and in-place (swap loop on flat arrays) models. *Status: proved.* Every add/sub/scale/transpose/compare overload, in place or apart. In-place transposition between objects of different types sharing storage is C28.
- **C27** set_identity writes the identity: Loop over the flat buffer as written; refuted for tall shapes, proved for square. *Status: partial.* C27_iff gives exactly the shapes for which set_identity is right: row-major with rows <= cols+1, column-major square (and trivial ones). C27_refuted: 3x1 row-major, 2x3 column-major.
- **C28** Aliasing detection: Storage tokens as id lists; refute the one-sided test, prove the covered case. *Status: partial.* Proved: mul when the destination lies inside one operand or apart from both; m *= diagonal; elementwise operations onto an operand; transpose in place, into part of the source, or apart. Refuted: partial overlap, destination strictly larger than an aliased operand, mul_acc (no alias test), transpose between different matrix types on one storage (C28_transpose_other_iff: right exactly for symmetric matrices).
- **C29** PermutationMatrix stays a permutation over every history: State with both index arrays; invariant over operation histories. *Status: proved.* C29_history: invariant and matrix semantics over every history; C29_defined: every operation with in-range indices is defined.
- **C30** Permutation sign is the mathematical parity: Cached sign state machine; cycle walking loop; link to Equiv.Perm.sign. *Status: partial.* C30_sign_partial: sign() is the determinant over every history of exchanges of distinct lines and transpositions. Refuted: exchanging a line with itself flips it, after setRowSources the function falls off its end, products keep the destination's old sign. permutation_sign returns (-1)^(number of displaced elements): C30_permutation_sign_iff says it is right exactly for an even number of cycles; every transposition is reported even. The unused _compute_sign is right.
- **C31** PLU decomposition reconstructs the matrix: Loop model of in-place elimination with partial pivoting on `Fin n -> Fin n -> K`; invariant P A = L U. *Status: partial.* decomp_plu: L*U equals the permuted input for every matrix with rows <= cols, degenerate or not; decomp_lup the same when no degeneracy is reported. Refuted: more rows than columns (C31_plu_tall_iff says exactly when it still holds), and decomp_lup on degenerate input.
- **C32** linear_solve returns the solution: Backsubstitution loops; combine with 31. *Status: partial.* C32_sound (success implies Mx=b), C32_complete. Refuted: a singular matrix whose last pivot vanishes is reported as solved, with a division by zero (C32_singular_iff gives the exact behaviour).
- **C33** Matrix inverse: Cofactor formulas by ring/field_simp into Matrix; general case from 31. *Status: partial.* Sizes 2, 3, 4 in every layout combination, permutation matrices, and diagonal matrices apart: proved. General size: C33_invNxN_sound/_complete. Refuted: general singular input may divide by zero instead of reporting failure (C33_singular_iff); in-place inversion of a diagonal matrix always fails and zeroes the matrix.
- **C34** Matrix determinant: Cofactor formulas vs Matrix.det; generic det refuted where indexing is wrong. *Status: partial.* Sizes 2, 3, 4 and diagonal proved. Refuted: det of a general NxN matrix (detNxN returns 0 for the identity of size 2 and more), and permutation matrices (right exactly for an even number of cycles).
- **C35** Cholesky factorisation: Loop model over the reals with error outcome; L L^T = A. *Status: partial.* Proved for the array form and for row-major matrices: succeeds exactly on positive definite input, and then L*Lt is the input with positive diagonal. C35_column_major: the matrix overload always decomposes as row-major, so for column-major matrices it stores the transposed factor (LLt = A only if L is diagonal).
- **C36** Orthogonalisation and null spaces: Gram-Schmidt loop over inner product space; orthogonal/nullspace via determinants. *Status: partial.* orthogonalize, orthonormalize, both projections, and orthogonal in 2 and 3 dimensions proved. orthogonal in 4+ dimensions and nullspace are sound when they return a nonzero result, but C36_orthogonal_iff / C36_nullspace_iff show they succeed exactly when a leading block of coordinates is nonsingular: independent inputs can give the zero vector, 'false', or a division by zero.
- **C37** Vector products, projections and extremal components: Vectors as Fin n -> K. *Status: proved.* reflect_about calls a neg() that does not exist; modelled with unary minus.
- **C38** Polar and spherical coordinates round-trip: Reals with sin/cos/arccos; from_polar refuted. *Status: partial.* to_polar, to_spherical and from_spherical proved. C38_from_polar_refuted: from_polar reads its argument as (angle, radius), so it does not invert to_polar.
- **C39** Axis-angle vector rotation: Formulas over the reals; rotate refuted on witnesses, per-case theorems. *Status: partial.* Vec3::rotate has a wrong third component: C39_rotate_iff says exactly when it is the rotation. C39_rotate_about_iff likewise for rotation about a centre. Vec2::rotate(center) does not compile. rotated() and align proved; align is undefined for exactly opposite directions.
- **C40** Quaternion algebra and rotation: Quaternion as 4 reals; ring identities. *Status: partial.* Algebra, rotation, composition, axis-angle in both directions proved. C40_direction_align_iff/_refuted: rotation_direction_align turns by twice the angle, right only if the directions are already aligned. rotation_scale and slerp do not compile; to_axis_angle only instantiates for double.
- **C41** AffineTransform keeps its inverse consistent over every history: Pairs of matrices; invariant by induction over expression trees. *Status: partial.* Every history of construction, composition, assignment and division keeps the stored inverse consistent, except: C41_self_divide_refuted, `xf /= xf` reads what it overwrites (C41_self_divide_iff: right only for the identity); C41_singular_refuted, transformation() of a singular matrix of size 2-4 silently keeps the identity as inverse.
- **C42** AffineTransform composition and normals: Matrix algebra. *Status: proved.*
- **C43** Rotation constructors are rotations: Formulas with c,s satisfying c^2+s^2=1. *Status: partial.* All rotation constructors proved. C43_direction_align_refuted: exactly opposite directions always give a half turn about y; C43_direction_align_opposite_iff: right only if the direction has no y component.
- **C44** Ray distance and projection: Formulas over ordered fields; dist2 refuted. *Status: partial.* C44_dist2_refuted: dist2 divides the squared distance by the length of the offset; C44_dist2_iff says when it is right. sdf does not compile.
- **C45** Rect is the set algebra of boxes: Pairs of Fin n -> K over a linear order / ordered field. *Status: partial.* All set algebra proved for boxes with points; intersection, product and translation for all. Refuted: an inverted box is not the unit of union unless it is the default box (C45_unit_refuted), Minkowski sum and scaling of empty boxes have points, `p - rect` is `rect - p`, and `rect - rect` always returns the default box and overwrites its operand.
- **C46** Rect intersection test: As 45; touching boxes refuted. *Status: partial.* C46_intersects_partial says exactly when the test errs: on boxes that share points it says no iff they merely touch on some axis. Refuted for touching boxes, integer boxes sharing a face of cells, a point box with itself, and inverted boxes.
- **C47** Rect distance and projection: As 45; project refuted on witness, clip/dist2/sdf proved. *Status: partial.* clip and dist2 proved. C47_project_iff: project always returns the nearest corner, which in two and more dimensions is the nearest boundary point only if no coordinate is strictly between the extremes; sdf has the right sign but the wrong magnitude accordingly.
- **C48** Rect remap, support and contact: As 45. *Status: partial.* remap, unmap, support proved; contact_vector proved for exact integer-like types (out of overlap, in contact, shortest). Refuted: for integer boxes the moved box still shares a cell; for floating point the function starts with an out-of-range conversion and is undefined.
- **C49** Ray/Rect slab test: Extended interval model of slab loop. *Status: partial.* Exact for boxes with points; C49_ray_refuted: an inverted (empty) box reports hits.
- **C50** Sphere queries: Reals/EuclideanSpace-like sums; intersects bugs refuted. *Status: partial.* contains, sdf, project, support, bounds and ray intersection proved for nonnegative radii (C50_ray_refuted: a ray without direction inside the sphere reports a miss). C50_spheres_partial: the sphere-sphere test ignores the other radius, so it is right exactly when the center of the other sphere settles it. C50_box_partial: the sphere-rectangle test ignores the center and answers for a sphere centered at (r,...,r).
- **C51** Capsule queries: As 50. *Status: partial.* sdf, contains, support, bounds, sphere test proved for distinct ends; with coinciding ends sdf and contains divide by zero. nearest_axis_point, project and normal do not compile as written (clamp of mixed types); modelled with converted bounds. project proved off the axis; C51_project_refuted: a point on the axis is returned unchanged.
- **C52** Cylinder queries: As 50; contains and sdf bugs refuted. *Status: partial.* C52_contains_iff: contains is the cylinder without its far cap (C52_contains_refuted). sdf is the distance outside; C52_sdf_inside_refuted: it is zero at every inside point. project is nearest off the line of the axis and divides by zero on it (C52_project_refuted). support proved; undefined exactly along the axis. bounds minimal. Ray intersection exact except along the wall (C52_ray_refuted). Undefined for coinciding ends.
- **C53** Dilated, extruded and frustum wrappers: Shapes as records of functions with a correctness predicate (set, support, sdf). *Status: partial.* Extrusion: contains, sdf, project, support, bounds, rays all proved. Frustum: contains, support, bounds proved; Frustum rays: C53_fru_ray_partial: exact for rays that do not run to infinity inside the cone and whose line's nearest point to the tip is not level with the tip; C53_fru_ray_inward_partial: exact for rays to infinity inside the cone that start on the right side; C53_fru_ray_inward_refuted: every other such ray that starts inside is told it misses; C53_fru_ray_axial_refuted: the answer for a ray parallel to the axis does not depend on where it is across the axis; C53_fru_ray_refuted: witnesses for rays through the tip, parallel to the axis, and in the plane of the tip. C53_fru_ray_edge_refuted: every ray pointing along a wall (at an end of the chord in which its plane meets the base) divides by zero. Dilation of convex shapes: sdf, support, bounds, project proved; C53_dil_contains_iff: contains leaves out the surface (refuted); project divides by zero on the surface of the wrapped shape. dilate() mixes types in std::max and only compiles for int coordinates.
- **C54** Oriented shapes: Shapes as sets + invertible affine maps. *Status: partial.* Generic placed shapes: contains, support, bounds, rays and operators all proved for any transform whose stored inverse is its inverse (C41 proves that of all transforms the library makes). Placed boxes: support, bounds up to 30 dimensions (C54_rect_bounds_refuted: 1 << N overflows beyond). C54_volume_refuted: the volume of an upright unit box is zero from two dimensions on, because of the determinant of C34; in one dimension it is signed. The overlap test of placed boxes is C58.
- **C55** Plane queries: Half space model; apply and intersects refuted. *Status: partial.* Construction, distance, containment, projection proved. Refuted: transforms (right exactly if the translation is along the new plane; a translation moves the plane the opposite way), intersects with convex shapes (touching from below is missed; exact meaning proved), with spheres (right only if touching from above or strictly below), with hulls (always false), dilate (moves the plane the wrong way).
- **C56** Simplex queries: Barycentric solve; per-function. *Status: partial.* Proved for every dimension: construction, insertion, exclusion, transformation and equality act on the vertex list (C56_construct, _insert, _exclude, _transform, _eq); support and bounds are those of the convex hull; containment is non-negative barycentric weights for affinely independent vertices (C56_contains) and a division by zero otherwise (C56_degenerate_refuted); rays (C56_ray), facing (points, edges, full simplexes) and volume (1 to 3 dimensions). Refuted: a ray can be given a one-point hit on a simplex it misses (C56_ray_refuted); every ray that hits an N-vertex simplex in 2 to 4 dimensions reads past the end of a vector (C56_flat_ray_refuted); a triangle in space is faced by points outside it; volumes vanish from 4 dimensions on and the measure of a full simplex is signed. C56_measure: segments in every dimension and triangles in space have their length and area; C56_measure_refuted: every other flat simplex with perpendicular edges measures zero.
- **C57** GJK never reports a false miss: Loop with arbitrary support functions and arbitrary projection step. *Status: proved.* C57_disjoint, for every dimension, limit and leftover state: separation_axis separates with a gap of at least its own length. Support functions are only assumed right for nonzero directions.
- **C58** Separating axis test: Axis list model. *Status: partial.* Both directions proved for all invertible placements (shears included) in 2 and 3 dimensions: C58_separates and C58_sound over any ordered field, C58_complete2/3 over the reals (extreme directions of the sum of the boxes are classified, Hahn-Banach supplies the separator), C58_oriented for two placed boxes. Fits says the type can hold the compared values (exists_fits). C58_touching_refuted: boxes that only touch are reported apart or overlapping depending on which axis separates them. In other dimensions the call is to a private member and does not compile.
- **C59** Nearest-neighbour bounds: Real inequality. *Status: proved.* C59_worst and C59_lower are the two bounds, C59_worst_tight says the first is the best possible, C59_nearest that the search is exact on every tree whose boxes are tight and whose nodes have at most 16 children, for points, boxes and any objects that reach the faces of their bounds. Trees built by the class are not like that: C80. The const overload of nearest and the helpers for pointers, pairs and Bounded do not compile.
- **C60** Bin lattice coverage: Integer bin ranges. *Status: partial.* C60_cells: each cell of the block is inspected once. C60_query: exactly which items are found. C60_found: every item of the region is found unless it lies on an upper face between two cells; C60_face_refuted: those never are. C60_near: nothing found is a cell or more away. query(region) does not compile.
- **C61** Dual arithmetic computes exact derivatives: HasDerivAt soundness of each operation; scalar-dual subtraction refuted. *Status: partial.* All operators proved except scalar - Dual: C61_scalar_minus_refuted shows its derivative is right only where the operand's derivative is zero (sign not flipped). diff_of_products on Duals does not compile (passes Duals where numbers are expected), so it is not modelled.
- **C62** Dual transcendental functions compute exact derivatives: As 61; tan, exp and pow(dual,dual) refuted. *Status: partial.* sin, cos, atan, asin, acos, atan2, log, sqrt, pow(Dual,scalar), abs, min, floor, ceil proved, and every program composed of them (C62_programs). Refuted: tan and exp (sign), pow(Dual,Dual) (divides by the exponent), max and pow(scalar,Dual) with any policy but Right (value replaced by the derivative), abs at zero with a decreasing argument.
- **C63** Dual conversion and comparison: Structure-level; converting constructor and digest refuted. *Status: partial.* Comparisons and element conversion proved. C63_policy_refuted: converting between policies replaces the value by the derivative. Digest: C12_dual_refuted.
- **C64** Chebyshev and Legendre recurrences: Polynomial recurrences vs Mathlib Chebyshev; Legendre via Bonnet and derivative identities. *Status: proved.* Legendre polynomials characterised by degree, value at 1 and orthogonality; associated ones by the m-th derivative.
- **C65** Perlin noise value and gradient: Corner table fold with fade; HasDerivAt. *Status: partial.* Zero at lattice points, differentiable everywhere, and gradient exact at every point for every dimension except one, for every assignment of lattice gradients. Refuted: the one-dimensional gradient reads an uninitialised accumulator; the table index overflows signed arithmetic for every practical point in two or more dimensions.
- **C66** Path interpolation: List of knots. *Status: partial.* Proved for parameters above -1. C66_negative_refuted: parameters at or below -1 are undefined (conversion to unsigned before the sign test).
- **C67** Tree subtrees own contiguous item ranges: List model of item list and node ranges; selected operations; bugs refuted. *Status: partial.* C67_partial: after any sequence of insertions of nodes and items, splits and removals of empty leaves, the tree is a tree, every node is in the list once and below its parent, the items of each leaf are contiguous, counts are sums over children. C67_insert_child, C67_insert_item, C67_split, C67_find_parent give the effect of the operations. Refuted by reachable witnesses: C67_root_range_refuted (an inner node's range can miss items of its children), C67_item_order_refuted (the order of items can differ from that of their leaves), C67_node_order_refuted (the node list is not in the documented breadth-first order), C67_split_order_refuted (split does not keep the order). insert_child_nodes, insert_items, adopt and erase(item) do not compile when instantiated and are not modelled.
- **C68** Random samplers land in their target sets: Stream model. *Status: partial.* Exact sets of outcomes: C68_box, C68_ball, C68_ball_radius, C68_disk, C68_unit, C68_unit_radius, C68_shell, C68_cap, C68_cap_dir_partial, C68_solidcap_partial, C68_oriented_disk, C68_arc. Refuted: C68_unit_refuted (the origin may be drawn, and is then divided by zero), C68_cap_dir_refuted (about the negative z-axis, the cap returned is the opposite one; likewise solidcap), C68_solidarc_refuted (length and angle are exchanged). The samplers of SampleGeometry.h (shapes, simplexes) do not compile: a member initialiser names a base class template without its arguments.
- **C69** Interpolated raster sampling blends the surrounding samples: Compose the grid iterator (C19) with multilinear interpolation (C04). *Status: partial.* Proved for grid positions >= 0. C69_negative_refuted: truncation towards zero makes sampling extrapolate on (-1,0). C69_dynamic_overrun_refuted: the run-time dispatched overload copies 3^M samples into a 2^M buffer.
- **C70** Spherical harmonics evaluation is the inner product with the direction's basis: Coefficient arrays with checked access; library functions as parameters; loop invariants over the recurrence state. *Status: proved.*
- **C71** Zonal harmonics: Same; real square root and integrals for the spot and the conversions. *Status: partial.* eval, generate_spot and conversion to spherical harmonics proved. Refuted: conversion back (factor 2l-1 instead of 2l+1), dot with fewer right-hand bands (reads past the end), project.
- **C72** Applying an index permutation in place: Cycle walks with fuel, invariants over Equiv.Perm.SameCycle. *Status: partial.* The reordering is proved for every permutation. C72_reset_refuted: the head of each cycle keeps its old index, so p is not the identity afterwards.
- **C73** Partial pivoting bounds the factors: Loop invariant beside the factorisation of C31. *Status: proved.* C73_plu and C73_lup.
- **C74** Quaternion exponential, logarithm and powers: Real quaternions; Mathlib's NormedSpace.exp on Quaternion as specification. *Status: partial.* exp is the exponential series for all q; exp(log q)=q and log(exp q)=q away from the real axis; pow obeys the law of exponents and gives q^n there. Refuted: log and pow divide by zero exactly on real quaternions (pow of zero gives one), and an integer exponent truncates the angle.
- **C75** Changing the dimension of a transform keeps it consistent: Matrices with the copied blocks; consistency as matrix products. *Status: partial.* The forward map is right in both directions. C75_inverse_refuted: the translation of the inverse is not copied when enlarging (C75_inverse_iff: consistent iff there is no translation). C75_truncate_refuted: the truncated inverse is not the inverse of the truncation.
- **C76** Sizes of boxes and boxes of given sizes: Lebesgue measure and Set.ncard of Set.Icc; integer division by cases. *Status: partial.* volume, real construction and resizing proved, fitted_to minimal for positive sizes. Refuted: fitted_to loses negative signs; integer from_corner/from_center with nonpositive sizes have extra cells; integer center() is off by one for odd boxes around negative points; integer set_dimensions is right iff the parity is unchanged. Exact statements for each.
- **C77** Queries inherited from the shape base classes: Wrapped queries as functions; the surface crossing argument over the reals. *Status: proved.* sdf and clip over the reals and closed shapes; bounds, contains and normal over any ordered field. normal is undefined exactly for points that are their own projection.
- **C78** Nearest points of simplexes: The recursive search over faces, as in the code; averages of vertices and feet of perpendiculars as specification. *Status: partial.* C78_clip, C78_project_thin, C78_project and C78_sdf over any ordered field with square roots (clip needs none), in one to three dimensions, and in any number of dimensions for simplexes in general position (GenPos: no altitude of a face is parallel to the hyperplane where the last coordinate vanishes, and the first coordinates tell the points of a flat simplex apart). Without it: C78_four_refuted, in four dimensions every query of the standard simplex divides by zero; C78_silent_refuted, a facet whose normal is not found is passed over without notice, so that a point beyond it is clipped to itself and has a negative signed distance. C78_normal: off the surface the reported normal is a positive multiple of the vector from the projection to the point; C78_normal_refuted: so it is not a unit vector, and inside it points inward.
- **C79** GJK finds every overlap: Loop invariant: nearest point of an independent simplex of the Minkowski difference; strict decrease for termination. *Status: partial.* C79_defined: in two and three dimensions there is always an answer, whatever the support functions return. C79_overlap: an answer that convex shapes meet is right unless the limit was reached. C79_exact: with m differences of support points and a limit of at least 2^m the test is exact. C79_limit_refuted: with the default limit of 10 the plane region under a parabola is reported to meet a point above it. C79_four_refuted: in four dimensions the test of two boxes, overlapping or apart, can divide by zero.
- **C80** Building a spatial index: Value model of trees indexed by depth; partition loop on lists; stuck-set argument for non-termination. *Status: partial.* C80_objects_partial: a tree that is built has each object once and no leaf is too big. Refuted: C80_nearest_refuted (the box of the upper half is made from the wrong objects, so nearest misses a point of the tree), C80_pivot_refuted (every choice of parameters but one, the default included, reads an uninitialised variable), C80_same_refuted (coinciding objects recurse forever), C80_nonneg_refuted (the pivot is the sum of the positions instead of their mean, so objects without negative coordinates are never separated and the recursion does not end), C80_arity_refuted. C80_split says which axis and pivot are used.
- **C81** Children of spatial index nodes: The node list with iterators as positions. *Status: partial.* C81_children_partial: right for one level. C81_children_refuted: with two levels the children of a node include those of its next sibling. C81_overflow_refuted: more than 16 candidates overflow the buffer of the search; C81_buffer_refuted: a node may seem to have 32 children.
- **C82** Samplers reach all of their set: Set of outcomes over all streams, as for C68. *Status: partial.* C82_shell_partial: right with inner radius zero, with equal radii and in one dimension. C82_shell_refuted: in all other cases no vectors near the inner sphere are returned, since the ratio of the radii is not raised to the n-th power; C68_solidcap_partial shows the same of solidcap, C68_solidarc_refuted of solidarc. For the other samplers the equations of C68 say that all of the set is reached.
- **C83** Samples are uniformly distributed: Lebesgue measure of the set of blocks of values that lead to a set of outcomes. *Status: partial.* C83_box, C83_ball, C83_unit for any number of draws. C83_ball_radius_refuted: solidball(radius) multiplies a uniform sample of the ball by another random factor; its mean squared length is n/(n+2) of that of the ball, so it is not uniform in any dimension. C83_cap, C83_cap_area, C83_cap_dir: caps are uniform in area (spherical coordinates; Archimedes). C83_disk, C83_arc. Shells and solid caps are not uniform (C82).
- **C84** Subtree ranges, searches and queries in trees: Model of the node list with links; invariant of all reachable trees; search loops as recursion over the list. *Status: partial.* C84_subtree_end_refuted: for every node but the root that has children, subtree_end() is the node itself, in every reachable tree. C84_root_partial: for the root it is right. C84_find_parent_refuted, C84_query_refuted, C84_query_self_refuted: wrong answers on reachable trees. C84_query_partial: right if all children are leaves and subtree_end is not the node.  C67_find_parent: right for leaves.
- **C85** Removing parts of trees: As for C84. *Status: partial.* C85_flatten_root_partial: right for the root, except its item range (C85_flatten_items_refuted). C85_flatten_refuted: for every other node with children, none is removed. C85_clear_refuted, C85_erase_items_refuted: undefined for every node with items. C85_erase_refuted: a child's children stay. C85_erase_partial: right for empty leaves.
- **C86** Comparing and copying trees: As for C84; equality as the loop over both lists; references tagged with their tree for copying. *Status: partial.* C86_eq_partial: equality compares the sequences of nodes and items; C86_eq_refl. C86_eq_refuted: equal trees built in different orders are unequal. C86_range_items: right items; C86_range_refuted: the count is one for every range; C86_range_child: a child inserted then takes the items. C86_copy_refuted: the copy constructor is undefined for every tree.
- **C87** Unique storage owns its array: Heap of arrays, objects as pointer and size; simulation of lists by any program. *Status: proved.* C87_unique. C87_self_move: an object moved to itself becomes empty.
- **C88** Shared and fixed storage: Heap of counted arrays; simulation of named lists. *Status: partial.* C88_shared: dynamic storage. C88_fixed_partial: fixed size, if n is the size. C88_fixed_refuted: exactly if n is smaller, Storage reads past the elements; exactly if n is greater, UniqueStorage writes past the array.
- **C89** Outward normals: Normals specified by a supporting plane at signed distance; queries of wrapped shapes as functions. *Status: partial.* C89_ball, C89_cap, C89_dil, C89_ext, C89_default. C89_cyl: right unless the point is outside the rim of the far cap. C89_cyl_far_refuted: there the near rim is used, and the result is wrong at every such point. C89_cyl_axis_refuted: undefined on the axis where the wall is no farther than the caps. Simplexes are C78.
- **C90** Nested shapes answer right at any depth: Inductive family of nested shapes over the dimension; induction on the nesting with the theorems of C50-C54. *Status: partial.* C90_convex, C90_support, C90_bounds, C90_sdf for every nesting; C90_contains without dilation. C90_contains_partial: with dilation, exact off the surface (surface points are left out, C53_dil_contains_refuted); stated for nestings of spheres and capsules by extruding and dilating.
- **C91** A zonal function about another axis: Addition theorem from contiguous relations of derivatives of Legendre polynomials, by recurrence on the degree. *Status: partial.* C91_axis_partial: exactly what is computed: the function is symmetric about the axis, but band l is multiplied by sqrt((2l+1)/4pi). C91_axis_refuted: so it differs from the zonal function in some direction, for every function but zero and every axis. C91_axis_scaled: right if the bands are scaled by sqrt(4pi/(2l+1)) beforehand. C91_fixed_refuted: a fixed size greater than that of the zonal function reads past it.
- **C92** Spherical convolution: Convolution as an integral over the sphere; Funk-Hecke formula from the addition theorem and orthonormality (C70). *Status: partial.* C92_convolve_refuted, C92_zonal_refuted: the result is not the convolution whenever function and kernel share a band; factors 4pi/(2l+1) and sqrt(4pi/(2l+1)) are missing per band. C92_convolve_partial, C92_zonal_partial: right if the kernel is scaled by these beforehand. C92_zonal_bands_refuted: a kernel with fewer bands is read past its end.
- **C93** Zonal generators, blurring and normalising: Moments of Legendre polynomials from their differential equation; closed forms of the loops. *Status: partial.* C93_lambertian for every order but 1; C93_lambertian_order_refuted: order 1 fills two bands. C93_diffuse_one, C93_diffuse_nat, C93_diffuse_add (positive coefficients), C93_diffuse_zero (no zero coefficient), all with respect to the convolve of the library. C93_normalize_refuted: normalize fixes band 1, not the integral; C93_normalize_bands_refuted: reads past a function of one band.
- **C94** Cubic raster sampling: Reindex the copied block by digit vectors; expand with C05 and C69_copy; weights of the kernel at the ends of the cell. *Status: partial.* C94_cubic, C94_grid, C94_quadratic_exact, C94_join for every dimension. C94_dynamic_overrun_refuted: the run-time dispatched overload copies 5^M samples into a 4^M buffer. C94_range_refuted records that, unlike the linear blend, the result may leave the range of the data.
- **C95** Accuracy of the product formulas: Floats as p-bit integers times powers of two, rounding to nearest characterised by minimality. Product errors are floats; either the first rounding is exact or the cancellation is at most one bit. *Status: proved.* C95_diff, C95_sum (1.5 units in the last place, and exactly zero when the exact value is), C95_relative, C95_multiply_add, C95_mix. The exponent range is unbounded in the model: overflow and underflow are excluded. The complex and Dual variants of diff_of_products do not compile.
- **C96** Arithmetic of spherical functions: Coefficient loops (C24) carried through the evaluation as a sum (C70). *Status: partial.* C96_scale: *=, /= and unary minus act on the value in every direction. C96_add_partial: += of a function with no more bands adds the values; C96_add_refuted: bands the left operand lacks are dropped. C96_constant: += k adds k/sqrt(4 pi); C96_constant_refuted: so it never adds a constant k other than 0. operator+ reads an uninitialised loop variable and returns nothing (not modelled).
- **C97** The hue circle: Explicit piecewise-linear form on each sixth of the period. *Status: proved.* C97_periodic, C97_landmarks, C97_saturated, C97_injective, C97_continuous (Lipschitz constant 6), over any linearly ordered field with a floor.
- **C98** Dimensions are checked: Types as template dimensions with run-time dimensions; each entry point as its compile-time condition and run-time test, with outcome compiled out, thrown or run. *Status: partial.* Exact characterisations: C98_mul_new, C98_dest, C98_mul_into, C98_elementwise, C98_transpose, C98_inv, C98_copy, C98_equal; C98_mul_partial for mul_acc when the shape of the destination is settled at compile time. C98_mul_refuted: with mixed fixed and dynamic types the inner dimensions are not compared, and C98_overrun_refuted: then the product reads past the right operand. C98_vec_refuted: dynamic matrix times vector into a vector. C98_diag_refuted, C98_diag_partial: m *= d does not compare the columns of the product. C98_convert_refuted, C98_convert_partial: the conversion constructor has no run-time check. mul(into, ...) with a vector argument does not compile.
- **C99** Constructing a matrix: Arrays as lists of possibly uninitialised elements; constructors as sequences of bounded writes. *Status: partial.* With agreeing sizes: C99_new_partial (square; for other shapes C27), C99_new_fixed, C99_data_partial, C99_data_col, C99_list_partial, C99_spans_partial, C99_convert_partial, C99_transpose_view. Refuted for all sizes concerned: C99_data_refuted (arrays are said to be row-major but taken in the order of the layout), C99_new_refuted (a size argument for a fixed dimension is not ignored if the other is dynamic: overrun), C99_list_refuted and C99_spans_refuted (too many or few elements overrun or leave elements uninitialised), C99_convert_refuted (a larger dynamic matrix overruns a fixed one). as_transpose() compiles only for fully dynamic matrices.
- **C100** Iterating over a matrix or a region of it: The loop with a step budget over the grid iterator of C19; closed form of the position after i steps. *Status: partial.* C100_matrix_partial: right for all dimensions except no columns and some rows; C100_matrix_refuted: then one element is visited per row. C100_region_partial: the elements up to and including the upper extreme are visited, in order; C100_region_refuted: it is documented to be exclusive, and its row and column are always visited.
- **C101** Compound assignment of dual numbers: stores one after the other on numbered objects; induction over the program *Status: partial.* Refuted for x *= x and x /= x: the value is overwritten before the right operand is read, so the derivative of x *= x is (x + x^2) dx instead of 2 x dx, and that of x /= x is (1 - x) dx instead of 0 (iff characterisations). Proved for all programs in which no variable is multiplied or divided by itself and no divisor vanishes.
- **C102** Arithmetic operators of vectors: loops over memory cells by induction; conversion to integer by floor and ceiling, characterised by its error bound *Status: partial.* C102_vector, C102_scalar: all dimensions and aliasings, operands of one type. C102_mul, C102_div: integer vectors and real scalars, result towards zero by less than one. Refuted: v *= s and v /= s convert the scalar first, and agree with v * s and v / s just when the scalar is an integer (C102_mul_assign_refuted, C102_div_assign_refuted); a scalar below one in size clears the vector, or divides by zero (C102_fraction_refuted).
- **C103** Rasters as objects: refinement of tables indexed by grid point, by induction over the history; lookups from C22 *Status: partial.* C103_history and C103_new for all histories with positive extents, with copies sharing one table; C103_independent_partial for histories without copies. C103_copy_refuted: a write through a copy is always a write to the original. C103_abyss_refuted: the background value of a single-channel raster is indeterminate until set. C103_count and C103_count_refuted: samplecount() is the number of grid points times the number of channels. The sample(pt, edge, interp) with run-time arguments assigns to its const parameter and does not compile.
- **C104** Floating-point error of dot products, lengths, normalisation and cross products: Model each operation as exact-then-round, prove the relative error of one rounding and carry it through the loops by induction on the list of indices; the cross product follows from C95. Search for a pair refuting exact antisymmetry. *Status: partial.* Holds except for antisymmetry: cross(u,v) and -cross(v,u) differ in the last bits, because only the second product is corrected; witnesses for 24 and 53 bits. Exponents are unbounded here; C106 treats underflow.
- **C105** Hashes of geometric values: Model values as trees of members and the digest as an evaluator with a step budget, following the template that is selected for each type. Prove termination by size, equality by induction, constants over the table of types. *Status: partial.* Holds for values without affine transforms. Refuted for AffineTransform and everything containing one (oriented shapes): the specialisation of Digest declares size_t N where the class has index_t N, so by the rules for deducing template arguments it is never selected, and std::hash and geom::hash call each other forever. Refuted for matrices of different layouts: equal, but hashed in storage order. Digests of Simplex and Ray do not compile, nor do 128-bit digests of ordinary scalars.
- **C106** Vector operations near the smallest floating-point numbers: Floats with a least exponent. On multiples of the least float and above the subnormal range the rounding is also nearest among all floats, so it extends to a rounding in the sense of C95 and the theorems of C95 and C104 transfer. Below, every product rounds to zero. *Status: partial.* The accuracy statements hold. Refuted for all formats and dimensions: vectors whose components have squares below half the smallest float have length zero, so unit() divides by zero, different points have distance zero, and the cross product of perpendicular tiny vectors is zero. The code does not rescale. For overflow see C109.
- **C107** Inner products and projection of spherical functions: The basis is orthonormal (C70), so inner products of finite sums are sums of products of coefficients. The squared error of a competitor splits into that of the projection and the squared distance to it. *Status: partial.* Proved for SphericalHarmonics. Refuted for ZonalHarmonics: the inner product of zonal functions weights band l by 4 pi/(2l+1), and dot leaves the weights out, so it is wrong for the square of every non-zero multiple of a single band. Refuted for the two documented recipes for sampling: the mean of the projected samples is the coefficient divided by 4 pi, so the sum has to be multiplied by 4 pi/N, not by 1/N or 1/(4 pi N).
- **C108** Boxes with infinite coordinates and NaN: Model the numbers as finite with a signed zero, infinite or NaN, with the comparisons and arithmetic of IEEE 754; show that numbers other than NaN are totally ordered and what std::min and std::max do with a NaN in each position; then go through the functions axis by axis. *Status: partial.* Proved without NaN, for infinite coordinates as well; the interval of a ray is exact for exact arithmetic and free of NaN for any rounding. Refuted with NaN: every box, even one without points, contains the points all of whose coordinates are NaN (for instance the direction of a zero vector), overlaps a box of NaN and is hit all along by a ray of NaN; a | b ignores a NaN of b while a |= b takes it over; Rect::clip takes NaN to the lower extreme, geom::clamp to the upper one, and Vec::clamp keeps it. Refuted for infinities: the box of points that are all at positive infinity begins at the largest finite number. Vec2/Vec3::is_finite_real do not compile (is_real is in another namespace) and are not modelled. Rounding of the ray parameters is not part of this claim.
- **C109** Vectors and spheres near the largest floating-point numbers: Follow the partial sums: once one is infinite it stays so, and before that each is at most the exact sum with the accumulated relative and absolute errors. Show that rounding to nearest in a format with p bits, smallest number 2^q and numbers below 2^e has the assumed properties. *Status: partial.* Refuted: if the square of one coordinate overflows (2^512 for double, 2^64 for float), length and squared length are infinite and the direction is the zero vector; the distance of finite points can be infinite; a sphere whose squared radius overflows contains every finite point; the dot product of perpendicular vectors is plus or minus infinity depending on the order of the coordinates. Proved: the squared length is finite, with the usual error bound, as long as the exact one with room for rounding is below the largest number. A dot product that comes out finite is the one computed without a largest number, and within these limits length and direction are finite with the usual relative errors. Underflow is in C106.
- **C110** Random floats in a range: rounded arithmetic as in C95; overflow as in C109 *Status: partial.* C110_to for rand(hi), C110_to_finite with overflow; C110_lower for the lower bound and monotonicity; C110_upper where hi - lo is a float (C110_grid: multiples of one power of two), C110_excess bounds the excess in general. C110_upper_refuted: for every precision and rounding to nearest rand(lo,hi) can exceed hi (in float, lo = -2^25 and hi = 3 can give 4). C110_far_refuted: where hi - lo overflows no result is finite.
- **C111** Floating-point error of transforms, matrix products, ray points and containment tests: sums of rounded products; rounding to nearest is monotone *Status: partial.* C111_vector, C111_matrix, C111_apply, C111_translate, C111_monomial, C111_ray, C111_plane, C111_plane_axis, C111_sphere, C111_sphere_points, C111_sphere_monotone. C111_plane_refuted and C111_sphere_refuted: for every precision there are points on the wrong side of an oblique plane, or outside a sphere, that the tests accept.
- **C112** Traits of shape types: induction over types *Status: partial.* C112_ray: is_ray_intersectable is right. C112_contains: which types have contains(). C112_convex_partial: is_convex promises nothing wrong, but of a wrapper it says whether the wrapped shape can be tested with rays; so (C112_convex_refuted) whatever is made from a dilated shape is reported not to be convex. C112_sdf_refuted: has_sdf is true for every dilated shape, also if sdf() does not compile; C112_sdf_partial: else right. C112_projectable_partial, C112_projectable_refuted (simplexes). C112_bounded_partial: wrong exactly for as_any_convex. Traits of Plane do not compile (no elem_t).
- **C113** Rounding errors of LU decompositions and linear systems: backward error analysis: loop invariants for elimination and both substitutions, then a perturbation with the same residual *Status: partial.* C113_plu, C113_solve, C113_inverse, C113_failure; C113_exact: without rounding these are the functions of C31-C33. C113_singular_refuted: failure does not mean that the matrix is singular: at every precision it is also reported for one that is not. Not covered: overflow and underflow, decomp_lup, sizes below five with closed formulas, and determinants.
- **C114** Rounding errors of Cholesky decompositions: loop invariant with errors; a failure gives a perturbed matrix with a row longer than its diagonal element allows, which is not positive definite *Status: partial.* C114_sound, C114_real, C114_complete, C114_diagonal; C114_exact: without rounding this is the function of C35. C114_border_refuted: the returned flag is not exact: with four bits a positive definite matrix is refused and one that is not is accepted. Not covered: overflow and underflow.
- **C115** Rounding errors of quaternion products and rotations: componentwise error of four rounded products, Cauchy-Schwarz for the norm, induction over the sequence with Mathlib's normed quaternions *Status: partial.* C115_product, C115_chain, C115_rotate, C115_rotations, C115_axis_angle, C115_half_turns; C115_exact: without rounding these are the functions of C40. C115_units_refuted: unit quaternions, which the documentation asks for, do not exist in floating point except for the 24 units of the Hurwitz order, so rotations change lengths. C115_third_turn_refuted: a rotation by one of these is not exact: at every precision a third of a turn about the diagonal, which only exchanges coordinates, loses a small component. Not covered: overflow and underflow; the accuracy of std::sin and std::cos.
- **C116** Rounding errors of determinants and inverses of sizes 2, 3 and 4: Bounds for the compensated sums of products of C95 are propagated through the formulas with a calculus of absolute bounds; permanents are expanded with Mathlib's definition; the confusions are shown with families of matrices for every precision. *Status: partial.* C116_det2, C116_inv2 (relative errors of 3 and 4/(1-3e) units, exact detection of singularity), C116_det3, C116_inv3, C116_inv4 (backward form: an adjugate and a determinant, each with a bound), C116_accurate3, C116_accurate4 (the inverse of a matrix whose determinant exceeds its rounding error), C116_exact. For sizes 3 and 4 the detection of singular matrices is refuted: C116_regular_refuted (for every precision, a regular matrix for each small enough determinant, whose determinant is computed as zero and whose inverse is refused) and C116_singular_refuted (a singular matrix which is given an inverse). det4x4 does not compile (it casts away const) and is not modelled in floats.
- **C117** Vectors of machine integers: Arithmetic of an arbitrary integral type with promotion, wrap-around and undefined overflow; loops as folds; conversions to double with the rounding of the float model. *Status: partial.* C117_conv, C117_add (sums, differences, negations), C117_abs, C117_mul, C117_div, C117_dot, C117_dot_total, C117_dot_small, C117_cross, C117_project, C117_mag, C117_unit, C117_round, C117_round_narrow, C117_cast, C117_castF. Refuted: dot products (and element-wise products) of uint16_t vectors are undefined once a product reaches 2^31, since the operands are promoted to int (C117_dot_refuted, C117_mul); a nonzero vector of a wrapping type can have squared length 0, and projecting on it returns the axis itself (C117_mag2_refuted); floor, ceil and round convert through double, so that odd 64-bit elements above 2^53 are changed and the top 511 values are undefined (C117_round_refuted); the length of a vector of 64-bit integers can be rounded up (C117_mag_refuted); where the squared length wraps to a negative number the length is undefined (C117_mag_nan_refuted); unit() is the zero vector whenever every element is shorter than the length by one, as for (3,4) (C117_unit_refuted). abs() of a vector of unsigned int or wider does not compile.
- **C118** Boxes of machine integers: The machine arithmetic of C117, applied per axis as the vector operators do, and as whole expressions for one dimension; compared with the exact boxes of C45 and C76. *Status: partial.* C118_dimensions, C118_volume, C118_one (sizes of one-dimensional boxes agree with the others), C118_center_signed, C118_center_one, C118_translate, C118_from_corner, C118_project, C118_dist2. Refuted: C118_empty_refuted (the volume of the default, empty box is undefined for signed types from int on and 2^n for all others; the volume of Rect::full is undefined or zero), C118_center_refuted (the centre of an unsigned box is outside it exactly if the sum of corners wraps along an axis not starting at zero), C118_wrap_refuted (moved or dilated unsigned boxes become empty), C118_project_refuted (narrow signed types choose the farther corner), C118_from_corner (a signed box reaching the greatest value is undefined). Operations that only compare are exact: C45, C46.
- **C119** Iterating over regions of machine integers: The loops of C19 with the machine arithmetic of C117, compared with the exact ones. *Status: partial.* C119_enumerates, C119_one, C119_decrement_one, C119_distance, C119_distance_one. Refuted: C119_stuck_refuted (if the fastest axis reaches the greatest value of a wrapping type the iterator stays in the first row forever), C119_overflow_refuted (for int and wider signed types this is undefined at the end of the first row), C119_end_refuted (if the slowest axis reaches the greatest value, end() is undefined, or is begin() when the axis covers all values, as for all pairs of bytes), second part of C119_distance (differences of unsigned iterators are too large as soon as a coordinate decreases), C119_distance_one (for unsigned int, negative differences become positive). index_t is unbounded in the N-dimensional distance; the sizes of the region are exact there. begin() of the one-dimensional class compiles only for the default axis order.
- **C120** Moving trees: The tree of C67 with a third kind of iterator, the end of the list moved from, that a moved tree keeps in every link which was an end. *Status: partial.* C120_reads; C120_insert_child: a node that has children can be given more. C120_insert_item_refuted: to insert an item is undefined in every leaf of every moved tree, because the parent of the root is the end of the list moved from. C120_successor, C120_insert_child_refuted, C120_single_refuted: to insert the first child of a node is undefined exactly if its place is the end of the nodes, so always in a tree of one node. Only the first operation after the move is modelled.
- **C121** Boxes of floating-point numbers: Every operation of the exact model of boxes followed by a rounding to nearest with p bits; errors relative to the exact model. *Status: partial.* C121_center, C121_dimensions, C121_volume, C121_from_center, C121_from_center_corners, C121_translate, C121_dilated, C121_minkowski, C121_corners, C121_set_dimensions, C121_fitted, C121_dist2, C121_unmap, C121_unmap_flat, C121_remap, C121_ray, C121_ray_inside. C121_remap_refuted: in every precision remap leaves a box of one point. C121_size_refuted: boxes of positive size made about a centre, or given positive sizes, can be points. C121_fitted_refuted: the interval [0,41] in float, [0,49] in double, fitted to [0,1] does not contain zero. C121_ray_refuted: in every precision a ray through the interior of a rectangle is reported to miss it.
- **C122** Quadratic equations in floating point: The function with every operation rounded to nearest with p bits; the discriminant by the compensated difference of products of C95; the square root as the exact one, rounded. *Status: proved.* C122_success: no root is lost or invented, for p >= 2. C122_roots: relative error at most 6 * 2^-p of each root, for p >= 5. C122_double: equal roots give equal results, rounded once. C122_linear: a linear equation gives its root rounded once.
- **C123** Rays and spheres in floating point: Sphere::intersect with every operation rounded, on the quadratic equations of C122. *Status: partial.* C123_hit: outside of a band about the radius, of relative width (1+2^-p)^(2n+3)-1 of twice the squared distance of the centre and the squared radius, rays are judged right. C123_ends: the ends are in order and within six roundings of the roots for the computed coefficients. C123_hit_refuted: in every precision and dimension some ray exactly towards the centre of a sphere is reported to miss it. C123_miss_refuted: some ray at twice the radius is reported to meet it. C123_surface: the points at the reported ends are on the sphere up to (1+2^-p)^(n+16)-1 of twice the squared distances of point and centre from the origin of the ray and the squared radius, however close to a tangent; C123_distance: so in distance, over the radius. C123_chord: each end is near an end of the exact chord, up to that error over the chord; C123_interval: the lower end near where the ray enters and the upper near where it leaves, unless the chord is shorter than the errors.
- **C124** Interpolation in floating point: The functions with every operation rounded to nearest; the double literals of interp_cubic with a second, at least as precise rounding; a calculus of relative errors. *Status: partial.* C124_mix, C124_linear, C124_cubic, C124_vec_mix: error bounds in terms of the sizes of the samples, in every dimension. C124_corners: interp_linear is exact at all corners, C124_vec_mix_ends at both ends, C124_cubic_start: interp_cubic at parameter zero. C124_cubic_end_refuted: at parameter one it may return half of the sample. C124_range_refuted: in every format with four bits or more some mix(t, a, a) with t between zero and one is not a.
- **C125** Remainders and angles in floating point: The functions with every operation rounded to nearest; floor exact; the full turn any positive float. *Status: partial.* C125_small: numbers in range are returned unchanged. C125_multiple, C125_congruent: right up to two roundings and out of range by at most one rounding of the number. C125_upper_refuted: for every modulus small negative numbers have the modulus as remainder. C125_negative_refuted: in every format with six bits or more some positive number has a negative remainder. C125_angle: for angles of one turn the shortest turn up to two roundings. C125_angle_refuted: some negative angle is taken for none.
- **C126** Signed distances in floating point: The functions with every operation rounded to nearest; the root of a negative number and division by zero are not a number. Errors are bounded against the exact functions of C50-C52. *Status: partial.* C126_sphere, C126_sphere_sign, C126_sphere_project: spheres, with relative error bounds in the number of roundings. C126_capsule: capsules, including points beyond the ends and on the axis. C126_cylinder_refuted: in every format of eleven bits or more and every dimension some point on the axis of a cylinder, between the caps and contained in it, has a distance that is not a number. C126_cylinder_partial, C126_cylinder_error: away from the axis the distance to a cylinder is defined, and within a few units in the last place of B²/H + A + |R| for the distances B to the base and H to the axis, the length A and the radius R.
- **C127** Orthogonalisation in floating point: The loops with every operation rounded to nearest; invariants over both loops; lengths over any ordered field with square roots. *Status: partial.* C127_project, C127_size: one projection and one step are right up to a few units in the last place of the length of the vector. C127_triangular: for any number of vectors the inputs are a triangular combination of the outputs up to rounding, outputs do not grow, and each is orthogonal to the one before it relative to the length of the input. C127_pair: two vectors. C127_unit: unit lengths, and failure exactly if a vector vanishes. C127_parallel_refuted: in every format with six bits or more and every dimension from three, the vectors made of two linearly independent ones can be as nearly parallel as one likes.
- **C128** Planes in floating point: Constructors and methods with every operation rounded to nearest; errors of the unit normal componentwise, then of dot products against the lengths of the points. *Status: partial.* C128_point: the given point is on the plane exactly (distance zero, contained, its own projection), and only the zero vector has no plane. C128_distance, C128_project, C128_origin: within a few units in the last place of the exact plane's, relative to the distances of the points from the origin. C128_segment, C128_triangle: the first corner is on the plane exactly, the others up to rounding, however narrow the triangle (edges representable). C128_project_refuted: in float and double a projected point is not on the plane. C128_triangle_refuted: in float and double two corners of a triangle are both outside the half-space of its own plane.
- **C129** Which simplexes contain a point, in floating point: The test with the rounded solver of C113; its backward error turned into distances of points. *Status: partial.* C129_near: a point said to be in is within 7 b m of the simplex in every coordinate, however thin the simplex (m bounds the coordinates and is at least one; b is the backward error of the solver, for a triangle 54 units in the last place times m). C129_inside: if the box of half side 32 b m around a point is within the simplex, the point is said to be in, and no number is divided by zero. C129_corner_refuted: in float and double a triangle does not contain one of its own vertices. C129_edge_refuted: in float and double a point exactly on an edge shared by two triangles is in neither.
- **C130** Which shapes overlap (GJK), in floating point: The model of C57 and C79 with every operation rounded. A report of being apart comes from one computed product, whatever the projection did; its error is that of C104. *Status: partial.* C130_apart: a report of being apart gives a direction along which the shapes overlap by at most 2δ + 2((1+2^-p)^(N+1) - 1) m per unit of its 1-norm, for any projection onto faces (δ the error of the supports, m bounds their coordinates). C130_overlap: shapes that overlap by more are never reported to be apart. C130_support: the support of a simplex is the first of its vertices with the largest computed product and is right up to rounding. C130_simplex: both for simplexes with any number of vertices, where there is always an answer. C130_answer: the loop always gives an answer within its limit. C130_exact: without rounding the model is that of C57 and C79. C130_miss_refuted: in float and double a point strictly inside a triangle is reported to be apart from it. C130_hit_refuted: a point outside a triangle is reported to overlap it. C130_limit_refuted: the limit of the iterations is reached in two dimensions, which the source says never happens, and a point outside is reported to overlap. Missing: a bound on how far apart shapes reported to overlap can be.
- **C131** Which placed boxes overlap (separating axes), in floating point: The model of C58 with every operation rounded. The axes are found without error; the corners by C111 and the products by C104; a widened box turns gaps below rounding into overlaps, to which the theorem of C58 applies. *Status: partial.* C131_apart: a report of being apart gives a direction along which the boxes overlap by at most 2((1+2^-p)^(2n+2) - 1) m per unit of its 1-norm, where m bounds the coordinates and the sums that give the corners. C131_overlap: so boxes are reported to overlap if a point of one is inside the other, by more than that. C131_meet3: boxes in three dimensions reported to overlap meet once one is widened by 2((1+2^-p)^8 - 1) m on every side. C131_meet2: in two dimensions the same with 2((1+2^-p)^6 - 1) m and twice the error of the held inverse. C131_exact: without rounding the model is that of C58. C131_miss_refuted: squares with a region in common are reported to be apart. C131_hit_refuted: boxes with a gap are reported to overlap.
- **C132** The rotation that aligns two directions, in floating point: The model of C43 with every operation rounded. Floats other than one keep a distance of 2^-p from it, which bounds the divisor from below and makes the loss of digits in the factor cancel against the size of the cross product. *Status: partial.* Proved: C132_defined, always; C132_element, C132_aligns, C132_orthonormal and C132_proper for directions with 1 + cos at least 64 * 2^-p and a computed inner product other than 1, with errors of at most (64 + 48 / (1 + cos)) 2^-p for an element; C132_vector and C132_vector_aligns, the method align of a vector, which has no such exception. C132_vector_exact and C132_exact: without rounding the models are those of C39 and C43. Refuted: C132_opposite_refuted, for a direction and its opposite the result is a reflection through the origin, scaled, whenever the inner product is not computed as exactly -1; C132_opposite_witness_refuted, which happens for unit vectors in float and in double. C132_close_refuted: directions sqrt(2 * 2^-p) apart (0.0003 in float) are aligned by the identity. C132_vector_opposite_refuted: align of opposite directions reflects too, or divides by zero.
- **C133** Rotation matrices in floating point: The matrices of C17 with every operation rounded. The error of an element is bounded by the Near calculus; the Gram matrix of the exact polynomial is computed in closed form for an axis that is not quite a unit vector, so that nothing is assumed of the inputs that their own rounding does not give. *Status: partial.* Proved: C133_axis_element, C133_quat_element, C133_both_element for any input. C133_axis: orthonormal by rows and columns up to 220 units 2^-p; C133_quat: up to 72. C133_axis_moves: the axis is kept up to 44 units, and points go where the rotation by the angle takes them up to 13 units and three times the error of the sine and cosine. C133_about: rotations about a point keep it up to 47 units of the sum of its coordinates, and so does the inverse; C133_undo: the two undo each other in either order. C133_affine: the last row and column. C133_exact: without rounding the model is that of C17. Refuted: C133_centre_refuted, a coordinate of the centre is not kept relative to itself: about (1023, 3, 0) the 3 moves by more than a hundred units in its last place. C133_one_element, C133_about_one and C133_one_exact: the same for the variant without an inverse, whose translation is made of fused products (56 units).
- **C134** Legendre and Chebyshev polynomials in floating point: The loops of C64 with every operation rounded. A quadratic form of two successive terms never grows under either recurrence; it bounds the polynomials themselves and turns the error of each step into one that is added up twice. *Status: partial.* Proved: C134_legendre (13 n^2 units 2^-p), C134_chebyshev_first (7 n^2 units) and C134_chebyshev_second (7 n^2 (n+1) units) against the polynomials themselves, C134_legendre_integral (13 n + 8 units), C134_ends (exact at -1 and 1), C134_reflected (odd and even to the last bit), C134_degree (one for degrees of zero or less), C134_exact (without rounding the model is that of C64). Refuted: C134_range_refuted, a computed value can exceed one; C134_relative_refuted, next to a root it can be zero though the exact value is not, so no relative bound holds.
- **C135** Perlin noise in floating point: The loops of C65 with every operation rounded. The computed weight is compared with the exact one in absolute terms; the exact weight lies between zero and one, so the sizes do not grow from axis to axis and the errors of the axes add up. *Status: partial.* Proved: C135_noise (index 758 N + 2 relative to a bound of the sums of the sizes of the gradient coordinates), C135_gradient (the same index relative to 19/4 of that bound for every coordinate, and the value equal to the noise to the last bit), C135_cell (the position within a cell is between 0 and 1, both included), C135_corners and C135_grid (exactly zero at grid points and wherever the computed position is at an end along every axis), C135_between (the exact noise lies between the linear functions of the corners), C135_exact (without rounding the model is that of C65). Refuted: C135_between_refuted, in single precision the noise can be negative where all four corners are nonnegative, because the computed weight exceeds one.
- **C136** The forms of vector operators agree: Vectors as blocks of a memory for the assignments; the conversions of the language between whole and floating-point types of any two precisions for the scalars; dot products with every operation rounded. *Status: partial.* Proved: C136_element (indices and elements), C136_assign and C136_assign_scalar (compound assignments with the same or a separate vector and with a scalar that may be one of the elements; nothing else changes), C136_scale (a scalar exact in the element type, scalar type twice as precise: equal to the last bit), C136_scale_whole and C136_divide_whole (whole elements and whole scalars: equal, and undefined for the same operands), C136_dot_coordinates (the dot product with separate coordinates within 2, 3 and 4 roundings), C136_perpendicular (it is exactly zero for perpendicular vectors), C136_dot_exact (without rounding both are the same). Refuted: C136_scale_refuted (v * 0.1 and v *= 0.1 differ for floats), C136_fraction_refuted (for whole elements v *= d is the zero vector and v /= d divides by zero for every |d| < 1, while v * d and v / d are computed as documented), C136_dot_refuted (a.dot(b) is not zero for perpendicular vectors for which a.dot(x, y) is).
- **C137** Paths in floating point: The function of C66 with every operation and conversion rounded. The fraction of a float is a float, so the parameter of each piece is exact; the weight is compared as in C135, and the blend of two computed points does not enlarge their errors. *Status: partial.* Proved: C137_between (760 rounding errors, relative to the larger of |position| + |velocity| of the two knots, in each coordinate), C137_knot (exact at every knot), C137_after (4 rounding errors), C137_before (2), C137_defined (defined for the same parameters), C137_exact (without rounding the model is that of C66). Refuted: C137_still_refuted, between two equal knots without velocity the computed point can be another one.
- **C138** Nearest points of rays and vectors of a given length in floating point: The functions of C44 and C03 with every operation rounded. The projection is that of C127; the rounded difference of the points changes the exact projection by at most a rounding error because projecting is linear and does not lengthen. *Status: partial.* Proved: C138_project, C138_project_origin, C138_fraction, C138_fraction_self, C138_with_length, C138_at_distance, C138_exact (without rounding the model is the exact one). Refuted: C138_on_line_refuted, a point on the line of a ray need not be its own computed nearest point.
- **C139** Automatic differentiation in floating point: The operators of C61 with every operation rounded, and formulas as trees. By induction over the tree, the value and the derivative are compared with the polynomial the tree stands for and its formal derivative; the size is the same polynomial with every minus turned into a plus. *Status: proved.* C139_value (values of duals are those of floats), C139_derivative (against the derivative of the polynomial), C139_constant, C139_product (3 rounding errors, relative), C139_quotient (5), C139_reciprocal (3), C139_exact (without rounding the operators are those of C61).
- **C140** Rasters sampled in floating point: The functions of C69 with every operation rounded. The cell of a float and the position in it are exact (C137); the blend is that of C124, the position in the domain that of C121. *Status: partial.* Proved: C140_linear, C140_at_sample (exact at grid points), C140_grid, C140_sample (both together), C140_nearest, C140_sample_nearest (in the coordinates of the domain), C140_exact (without rounding the model is that of C69). Refuted: C140_nearest_refuted, the largest float below 1/2 takes the sample at 1 instead of the one at 0, where ties are rounded to even.
- **C141** Support points in floating point, and overlaps of capsules, rectangles and extrusions: The functions of C50, C51 and C53 with every operation rounded. The vector to the surface is that of C138; the choice of the end is a product with the error of C104. The bounds are the hypotheses of C130. *Status: proved.* C141_ball, C141_dilated, C141_capsule, C141_box, C141_extruded, C141_simplex: the error of each support point and a bound on its coordinates. C141_overlap: the overlap test for any two shapes with such bounds. C141_exact: without rounding the model is that of C50, C51 and C53. Spheres and dilated shapes are not among those of C141_overlap, since their support points are undefined for the zero direction.
- **C142** Overlaps of spheres, dilated shapes, extrusions and frustums, in floating point: The loop of C130 with support functions that may be undefined. Only its first direction can be zero, so it agrees with the total one of C141 unless the first two support points are equal. *Status: partial.* C142_ball, C142_dilated, C142_extruded, C142_frustum, C142_total: the errors of the support points. C142_overlap: the overlap test for any two such shapes, if the first two support points differ or both shapes have a point for the zero direction. C142_exact: without rounding the support points are those of C53. Refuted: C142_touch and C142_spheres_refuted, two spheres that touch on the first axis make the test divide zero by zero, whatever their radius: the first search direction is not tested for zero, as later ones are.
- **C143** Support points of cylinders in floating point: The function of C52 with every operation rounded. The part across the axis has the error of one step of C127, the vector to the side that of C138, the choice of the end that of C104. *Status: partial.* C143_support: the error of the support point, for directions not near the axis. C143_exact: without rounding the model is that of C52. Refuted: C143_axis_refuted, for every precision of at least 6 bits, rounding and radius there are a cylinder on the first axis and a direction along it for which the point is off by the radius along the axis, beyond the end or back from it; in double, a cylinder of length 397/7 has the point beyond its end by the radius.
- **C144** Support points, bounds and overlaps of transformed shapes in floating point: The functions of C54 with every operation rounded. The direction and the point have the errors of C111; a change of the direction costs at most the size of the shape times the change. *Status: proved.* C144_support, C144_bounds: the errors of the support points and of the bounds. C144_boxes: the overlap test of oriented rectangles. C144_exact: without rounding the model is that of C54.
- **C145** Bounds of placed boxes and points in them, in floating point: The functions of C54 with every operation rounded. A component of a moved point is monotone in each product, so the extreme is at the corner that the signs of the row select; the rest is C111 and C144. *Status: partial.* Refuted: C145_contains_refuted, a corner of a box moved exactly into the world is reported to be outside in float and in double; C145_empty_refuted, the bounds of a placed box are never empty, even if the box is; C145_bounds_refuted, from 31 dimensions on the number of corners overflows. Proved: C145_bounds, C145_same, C145_bounds_error, C145_contains for all boxes that are not empty; C145_exact: without rounding the model is that of C54.
- **C146** Points in frustums and bounds of frustums, in floating point: The functions of C53 with every operation rounded. Rounding is monotone and fixes the faces of the box, so a quotient in the box remains there; the bounds are those of C53 with each face rounded. *Status: partial.* Refuted: C146_box_refuted, in float and in double a point outside of a frustum is reported to be in it. Proved: C146_contains, C146_box (every point of the frustum is reported, and the error of the others), C146_bounds. C146_exact: without rounding the model is that of C53.
- **C147** Distances to extruded and dilated shapes in floating point: The functions of C53 with every operation rounded. Both formulas beyond the caps are hypotenuses with the distance to the base or zero; the hypotenuse changes no more than its sides. *Status: proved.* C147_extruded, C147_extruded_sign, C147_dilated: the errors and the signs. C147_disk: an extruded sphere. C147_exact: without rounding the model is that of C53, in which Dilated::contains leaves out the surface.
- **C148** Composed and inverted transforms in floating point: The functions of the exact transforms with every operation rounded. The greatest sum of absolute values in a row is a norm; the errors of C111 are added up in it. *Status: partial.* Refuted: C148_round_trip_refuted, a point scaled and scaled back is not always where it was, in float or double. Proved: C148_mul, C148_div, C148_round_trip: the errors; C148_scale, C148_translation: the inverses kept with scalings and shifts. C148_exact: without rounding the model is that of the exact transforms.
- **C149** Rays moved by transforms in floating point: The functions of the exact transforms with every operation rounded. Errors are relative to the sum of the absolute values of the products, and multiply along the chain of operations. *Status: partial.* Refuted: C149_ray_refuted, the point of the moved ray and the moved point of the ray are not the same numbers, in float or double. Proved: C149_ray: the errors. C149_exact: without rounding the model is that of the exact transforms.
- **C150** Projection to extruded shapes in floating point: The projection with every operation rounded, over any base. The comparison of rounded distances orders the exact ones up to a factor; the exact projection is the nearest point of the surface by C53. *Status: proved.* C150_project: one of three and the nearest of them up to rounding. C150_surface: on the surface, and the nearest point of it up to rounding. C150_exact: without rounding the model is that of C53.
- **C151** Normals of spheres and projection to dilated shapes in floating point: The functions of the exact shapes with every operation rounded. Errors are factors between 1/B and B, which multiply through the differences, the length and the quotient. *Status: proved.* C151_normal: factors of the coordinates. C151_project: the projection to a dilated shape. C151_exact: without rounding the models are those of the exact shapes. For points on a line (one dimension) the code takes the sign in place of the quotient, which is not modelled here.
