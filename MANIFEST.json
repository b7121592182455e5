{
 "claims": [
  {
   "property": "C01",
   "status": "partial",
   "theorems": [
    "Geomc.Util.C01_positiveMod",
    "Geomc.Util.C01_positiveMod_zero",
    "Geomc.Util.C01_positiveModU",
    "Geomc.Util.C01_large_modulus_refuted",
    "Geomc.Util.C01_positiveModF"
   ],
   "note": "Holds for integers with 2b-1 <= max int, unsigned b <= 2^31, and reals. C01_large_modulus_refuted: the code adds b before reducing, so for int a>=0 and b above 2^30 the sum overflows (undefined), and unsigned wraps to a wrong value."
  },
  {
   "property": "C02",
   "status": "partial",
   "theorems": [
    "Geomc.Util.C02_ceilDiv_iff",
    "Geomc.Util.C02_ceilDiv_partial",
    "Geomc.Util.C02_floorDiv_iff",
    "Geomc.Util.C02_floorDiv_partial",
    "Geomc.Util.C02_snap_partial",
    "Geomc.Util.C02_refuted"
   ],
   "note": "ceil_div/floor_div are right exactly on the domain given by the iff theorems; C02_refuted has witnesses with wrong signs of operands."
  },
  {
   "property": "C03",
   "status": "proved",
   "theorems": [
    "Geomc.Util.C03_clamp",
    "Geomc.Util.C03_clamp_nearest",
    "Geomc.Util.C03_isPowerOfTwo"
   ],
   "note": ""
  },
  {
   "property": "C04",
   "status": "proved",
   "theorems": [
    "Geomc.Util.C04_multilinear",
    "Geomc.Util.C04_corner",
    "Geomc.Util.C04_range",
    "Geomc.Util.C04_affine_exact"
   ],
   "note": ""
  },
  {
   "property": "C05",
   "status": "proved",
   "theorems": [
    "Geomc.Util.C05_tensor",
    "Geomc.Util.C05_endpoints",
    "Geomc.Util.C05_gridpoint",
    "Geomc.Util.C05_quadratic_exact",
    "Geomc.Util.C05_C1_join"
   ],
   "note": ""
  },
  {
   "property": "C06",
   "status": "proved",
   "theorems": [
    "Geomc.Util.C06_success_iff",
    "Geomc.Util.C06_roots"
   ],
   "note": ""
  },
  {
   "property": "C07",
   "status": "proved",
   "theorems": [
    "Geomc.Util.C07_angleTo",
    "Geomc.Util.C07_shortest",
    "Geomc.Util.C07_degrees_radians"
   ],
   "note": ""
  },
  {
   "property": "C08",
   "status": "proved",
   "theorems": [
    "Geomc.Deque.C08_every_history",
    "Geomc.Deque.C08_index_wraps",
    "Geomc.Deque.C08_empty_access",
    "Geomc.Deque.C08_reserve",
    "Geomc.Deque.C08_destructor"
   ],
   "note": ""
  },
  {
   "property": "C09",
   "status": "partial",
   "theorems": [
    "Geomc.Deque.C09_eq",
    "Geomc.Deque.C09_assign_move",
    "Geomc.Deque.C09_copyNew_partial",
    "Geomc.Deque.C09_copyNew_refuted"
   ],
   "note": "The copy constructor allocates a buffer of the source's size but reports the source's capacity when the source lives on the heap: C09_copyNew_refuted. Proved: copies when capacity matches, assignment, moves, ==."
  },
  {
   "property": "C10",
   "status": "partial",
   "theorems": [
    "Geomc.SmallStorage.C10_history_partial",
    "Geomc.SmallStorage.C10_growth_refuted",
    "Geomc.SmallStorage.C10_growth_refuted_witness",
    "Geomc.SmallStorage.C10_moveNew_refuted",
    "Geomc.SmallStorage.C10_copy_move_eq_partial"
   ],
   "note": "Every growth beyond the inline capacity moves onto unconstructed heap slots: C10_growth_refuted shows each such history is undefined; move construction of a heap-backed storage also refuted. Proved: all histories which stay within the reserved capacity."
  },
  {
   "property": "C11",
   "status": "proved",
   "theorems": [
    "Geomc.Hash.C11_bijective",
    "Geomc.Hash.C11_first_argument_refuted"
   ],
   "note": "The first argument is not bijective: C11_first_argument_refuted (not part of the claim)."
  },
  {
   "property": "C12",
   "status": "proved",
   "theorems": [
    "Geomc.Hash.C12_last",
    "Geomc.Hash.C12_respects_eq",
    "Geomc.Hash.C12_separates",
    "Geomc.Hash.C12_dual_refuted"
   ],
   "note": "C12_dual_refuted: the Dual digest includes the derivative which == ignores (see C63)."
  },
  {
   "property": "C13",
   "status": "proved",
   "theorems": [
    "Geomc.Hash.C13_siphash",
    "Geomc.Hash.C13_injective"
   ],
   "note": ""
  },
  {
   "property": "C14",
   "status": "partial",
   "theorems": [
    "Geomc.Random.C14_range",
    "Geomc.Random.C14_unbiased_partial",
    "Geomc.Random.C14_biased_refuted",
    "Geomc.Random.C14_signed",
    "Geomc.Random.C14_signed_undefined",
    "Geomc.Random.C14_signed_defined"
   ],
   "note": "Range and termination proved for every bound. Exact uniformity proved for bounds up to 3/4 of the word range and refuted for every larger bound (C14_biased_refuted). For signed types of every width w lo=hi, spans >= 2^(w-1) and the least integer as a bound are undefined in the code (C14_signed_undefined); all other ranges are answered (C14_signed_defined)."
  },
  {
   "property": "C15",
   "status": "proved",
   "theorems": [
    "Geomc.Random.C15_unit_interval",
    "Geomc.Random.C15_bits",
    "Geomc.Random.C15_law"
   ],
   "note": "The value 1.0 itself is attainable (example)."
  },
  {
   "property": "C16",
   "status": "proved",
   "theorems": [
    "Geomc.Random.C16_permute"
   ],
   "note": ""
  },
  {
   "property": "C17",
   "status": "proved",
   "theorems": [
    "Geomc.Random.C17_xoshiro",
    "Geomc.Random.C17_reference",
    "Geomc.Random.C17_other_seeds_refuted",
    "Geomc.Random.C17_entropy"
   ],
   "note": "The other two seeding functions can yield the all-zero state: C17_other_seeds_refuted; the one with an entropy source for exactly one quadruple (C17_entropy)."
  },
  {
   "property": "C18",
   "status": "partial",
   "theorems": [
    "Geomc.Random.C18_lcrand_period",
    "Geomc.Random.C18_mtrand",
    "Geomc.Random.C18_reseed_refuted",
    "Geomc.Random.C18_bits"
   ],
   "note": "Period, table safety and the MT recurrence proved for the word streams. C18_bits: rand<bool> gives every bit of the words in order. C18_reseed_refuted: rseed keeps the buffered bits, so the stream of rand<bool>/rand<float> is not reproduced by re-seeding."
  },
  {
   "property": "C19",
   "status": "partial",
   "theorems": [
    "Geomc.Grid.C19_enumerates",
    "Geomc.Grid.C19_exclusive_ctor",
    "Geomc.Grid.C19_exclusive_ctor_1d_refuted"
   ],
   "note": "Proved for every region given as a Rect and for the exclusive-bound constructor in two or more dimensions. C19_exclusive_ctor_1d_refuted: the one dimensional specialisation adds 1 to the exclusive bound instead of subtracting it, so it visits two cells too many."
  },
  {
   "property": "C20",
   "status": "partial",
   "theorems": [
    "Geomc.Grid.C20_decrement_iff",
    "Geomc.Grid.C20_decrement_refuted",
    "Geomc.Grid.C20_partial",
    "Geomc.Grid.C20_advance_refuted"
   ],
   "note": "C20_decrement_iff: --(++it)==it exactly when no row boundary is crossed (the borrow stores hi-1 instead of hi); C20_advance_refuted: += ignores the current position and the region's lower corner. Proved: one dimension, and advancing from begin() of regions at the origin."
  },
  {
   "property": "C21",
   "status": "proved",
   "theorems": [
    "Geomc.Layout.C21_index_bijective",
    "Geomc.Layout.C21_row_col",
    "Geomc.Layout.C21_distance",
    "Geomc.Layout.C21_empty_undefined"
   ],
   "note": "Shapes with no element divide by zero: C21_empty_undefined."
  },
  {
   "property": "C22",
   "status": "partial",
   "theorems": [
    "Geomc.Rast.C22_lookup",
    "Geomc.Rast.C22_inside",
    "Geomc.Rast.C22_period",
    "Geomc.Rast.C22_set",
    "Geomc.Rast.C22_mirror_extent_one_refuted"
   ],
   "note": "Proved for clamp, periodic and constant edges with positive extents and mirrored edges with extents above 1. C22_mirror_extent_one_refuted: a mirrored axis with a single sample divides by zero."
  },
  {
   "property": "C23",
   "status": "partial",
   "theorems": [
    "Geomc.Rast.C23_high_corner_refuted",
    "Geomc.Rast.C23_default_domain_refuted",
    "Geomc.Rast.C23_partial"
   ],
   "note": "C23_high_corner_refuted: to_gridspace scales by extent instead of extent-1, so the high corner lands one past the last sample. C23_default_domain_refuted: also with the default domain. Proved: low corner for all edges; high corner with clamped edges."
  },
  {
   "property": "C24",
   "status": "partial",
   "theorems": [
    "Geomc.SH.C24_index",
    "Geomc.SH.C24_access",
    "Geomc.SH.C24_dot",
    "Geomc.SH.C24_scale",
    "Geomc.SH.C24_add",
    "Geomc.SH.C24_normalize_refuted"
   ],
   "note": "Indexing, dot, += and *= proved. C24_normalize_refuted: normalize never touches the constant band, the only one with a non-zero integral."
  },
  {
   "property": "C25",
   "status": "partial",
   "theorems": [
    "Geomc.Mtx.C25_mul",
    "Geomc.Mtx.C25_mul_acc",
    "Geomc.Mtx.C25_vec_mul",
    "Geomc.Mtx.C25_vec_mul_acc",
    "Geomc.Mtx.C25_mtx_diag_partial",
    "Geomc.Mtx.C25_mtx_diag_refuted",
    "Geomc.Mtx.C25_diag_mtx_square",
    "Geomc.Mtx.C25_diag_mtx_wide_refuted",
    "Geomc.Mtx.C25_diag_mtx_refuted",
    "Geomc.Mtx.C25_diag_diag_partial",
    "Geomc.Mtx.C25_diag_diag_general_partial",
    "Geomc.Mtx.C25_diag_diag_refuted",
    "Geomc.Mtx.C25_mtx_perm",
    "Geomc.Mtx.C25_perm_mtx",
    "Geomc.Mtx.C25_perm_vec",
    "Geomc.Mtx.C25_vec_perm",
    "Geomc.Mtx.C25_perm_perm",
    "Geomc.Mtx.C25_perm_perm_general",
    "Geomc.Mtx.C25_perm_perm_refuted"
   ],
   "note": "Proved: general products and mul_acc, vector products, permutation with matrix/vector/permutation, and diagonal products where the shapes allow. Refuted: matrix times a wide diagonal (padding columns read past the diagonal), diagonal times matrix (multiplies the diagonal by itself: never reads the right operand), diagonal times diagonal with more rows than columns, permutation times permutation into a general matrix (writes the inverse)."
  },
  {
   "property": "C26",
   "status": "proved",
   "theorems": [
    "Geomc.Mtx.C26_zip",
    "Geomc.Mtx.C26_add",
    "Geomc.Mtx.C26_sub",
    "Geomc.Mtx.C26_scale",
    "Geomc.Mtx.C26_scale_in",
    "Geomc.Mtx.C26_diag_zip",
    "Geomc.Mtx.C26_diag_zip_general",
    "Geomc.Mtx.C26_diag_scale",
    "Geomc.Mtx.C26_diag_scale_general",
    "Geomc.Mtx.C26_transpose_copy",
    "Geomc.Mtx.C26_transpose_flat",
    "Geomc.Mtx.C26_transpose_in_place",
    "Geomc.Mtx.C26_transpose_square",
    "Geomc.Mtx.C26_transpose_view",
    "Geomc.Mtx.C26_transpose_diag",
    "Geomc.Mtx.C26_eq",
    "Geomc.Mtx.C26_eq_dims",
    "Geomc.Mtx.C26_eq_flat",
    "Geomc.Mtx.C26_eq_diag",
    "Geomc.Mtx.C26_eq_perm"
   ],
   "note": "Every add/sub/scale/transpose/compare overload, in place or apart. In-place transposition between objects of different types sharing storage is C28."
  },
  {
   "property": "C27",
   "status": "partial",
   "theorems": [
    "Geomc.Mtx.C27_frame",
    "Geomc.Mtx.C27_iff",
    "Geomc.Mtx.C27_square",
    "Geomc.Mtx.C27_refuted",
    "Geomc.Mtx.C27_diag"
   ],
   "note": "C27_iff gives exactly the shapes for which set_identity is right: row-major with rows <= cols+1, column-major square (and trivial ones). C27_refuted: 3x1 row-major, 2x3 column-major."
  },
  {
   "property": "C28",
   "status": "partial",
   "theorems": [
    "Geomc.Mtx.C28_mul_partial",
    "Geomc.Mtx.C28_mul_refuted",
    "Geomc.Mtx.C28_mul_acc_refuted",
    "Geomc.Mtx.C28_mul_diag_in_place",
    "Geomc.Mtx.C28_elementwise_in_place",
    "Geomc.Mtx.C28_elementwise_refuted",
    "Geomc.Mtx.C28_transpose_partial",
    "Geomc.Mtx.C28_transpose_refuted",
    "Geomc.Mtx.C28_transpose_other_disjoint",
    "Geomc.Mtx.C28_transpose_other_view",
    "Geomc.Mtx.C28_transpose_other_same",
    "Geomc.Mtx.C28_transpose_other_iff",
    "Geomc.Mtx.C28_transpose_other_refuted"
   ],
   "note": "Proved: mul when the destination lies inside one operand or apart from both; m *= diagonal; elementwise operations onto an operand; transpose in place, into part of the source, or apart. Refuted: partial overlap, destination strictly larger than an aliased operand, mul_acc (no alias test), transpose between different matrix types on one storage (C28_transpose_other_iff: right exactly for symmetric matrices)."
  },
  {
   "property": "C29",
   "status": "proved",
   "theorems": [
    "Geomc.Mtx.C29_history",
    "Geomc.Mtx.C29_defined"
   ],
   "note": "C29_history: invariant and matrix semantics over every history; C29_defined: every operation with in-range indices is defined."
  },
  {
   "property": "C30",
   "status": "partial",
   "theorems": [
    "Geomc.Mtx.C30_sign_partial",
    "Geomc.Mtx.C30_swap_self_refuted",
    "Geomc.Mtx.C30_uncached_refuted",
    "Geomc.Mtx.C30_product_refuted",
    "Geomc.Mtx.C30_permutation_sign_value",
    "Geomc.Mtx.C30_permutation_sign_iff",
    "Geomc.Mtx.C30_permutation_sign_refuted",
    "Geomc.Mtx.C30_compute_sign"
   ],
   "note": "C30_sign_partial: sign() is the determinant over every history of exchanges of distinct lines and transpositions. Refuted: exchanging a line with itself flips it, after setRowSources the function falls off its end, products keep the destination's old sign. permutation_sign returns (-1)^(number of displaced elements): C30_permutation_sign_iff says it is right exactly for an even number of cycles; every transposition is reported even. The unused _compute_sign is right."
  },
  {
   "property": "C31",
   "status": "partial",
   "theorems": [
    "Geomc.LU.C31_plu",
    "Geomc.LU.C31_plu_tall_iff",
    "Geomc.LU.C31_tall_refuted",
    "Geomc.LU.C31_plu_count",
    "Geomc.LU.C31_degenerate",
    "Geomc.LU.C31_lup",
    "Geomc.LU.C31_lup_count",
    "Geomc.LU.C31_lup_degenerate_refuted"
   ],
   "note": "decomp_plu: L*U equals the permuted input for every matrix with rows <= cols, degenerate or not; decomp_lup the same when no degeneracy is reported. Refuted: more rows than columns (C31_plu_tall_iff says exactly when it still holds), and decomp_lup on degenerate input."
  },
  {
   "property": "C32",
   "status": "partial",
   "theorems": [
    "Geomc.LU.C32_sound",
    "Geomc.LU.C32_complete",
    "Geomc.LU.C32_failure",
    "Geomc.LU.C32_singular_iff",
    "Geomc.LU.C32_singular_refuted",
    "Geomc.LU.C32_backsolve_plu"
   ],
   "note": "C32_sound (success implies Mx=b), C32_complete. Refuted: a singular matrix whose last pivot vanishes is reported as solved, with a division by zero (C32_singular_iff gives the exact behaviour)."
  },
  {
   "property": "C33",
   "status": "partial",
   "theorems": [
    "Geomc.LU.C33_inv2",
    "Geomc.LU.C33_inv3",
    "Geomc.LU.C33_inv4",
    "Geomc.LU.C33_diag",
    "Geomc.LU.C33_diag_in_place_refuted",
    "Geomc.LU.C33_perm",
    "Geomc.LU.C33_invNxN_sound",
    "Geomc.LU.C33_invNxN_complete",
    "Geomc.LU.C33_singular_iff",
    "Geomc.LU.C33_singular_refuted"
   ],
   "note": "Sizes 2, 3, 4 in every layout combination, permutation matrices, and diagonal matrices apart: proved. General size: C33_invNxN_sound/_complete. Refuted: general singular input may divide by zero instead of reporting failure (C33_singular_iff); in-place inversion of a diagonal matrix always fails and zeroes the matrix."
  },
  {
   "property": "C34",
   "status": "partial",
   "theorems": [
    "Geomc.LU.C34_det2",
    "Geomc.LU.C34_det3",
    "Geomc.LU.C34_det4",
    "Geomc.LU.C34_diag",
    "Geomc.LU.C34_perm_iff",
    "Geomc.LU.C34_detNxN_refuted",
    "Geomc.LU.C34_detNxN_partial",
    "Geomc.LU.C34_factors"
   ],
   "note": "Sizes 2, 3, 4 and diagonal proved. Refuted: det of a general NxN matrix (detNxN returns 0 for the identity of size 2 and more), and permutation matrices (right exactly for an even number of cycles)."
  },
  {
   "property": "C35",
   "status": "partial",
   "theorems": [
    "Geomc.LU.C35_sound",
    "Geomc.LU.C35_ok_iff",
    "Geomc.LU.C35_real",
    "Geomc.LU.C35_matrix",
    "Geomc.LU.C35_column_major",
    "Geomc.LU.C35_column_major_refuted"
   ],
   "note": "Proved for the array form and for row-major matrices: succeeds exactly on positive definite input, and then L*Lt is the input with positive diagonal. C35_column_major: the matrix overload always decomposes as row-major, so for column-major matrices it stores the transposed factor (LLt = A only if L is diagonal)."
  },
  {
   "property": "C36",
   "status": "partial",
   "theorems": [
    "Geomc.LU.C36_orthogonal_sound",
    "Geomc.LU.C36_orthogonal_iff",
    "Geomc.LU.C36_orthogonal_refuted",
    "Geomc.LU.C36_orthogonal3",
    "Geomc.LU.C36_orthogonal2",
    "Geomc.LU.C36_nullspace_sound",
    "Geomc.LU.C36_nullspace_iff",
    "Geomc.LU.C36_nullspace_refuted",
    "Geomc.LU.C36_orthogonalize",
    "Geomc.LU.C36_orthonormalize",
    "Geomc.LU.C36_project_orthogonal",
    "Geomc.LU.C36_project_to_subspace",
    "Geomc.LU.C36_orthogonalize2",
    "Geomc.LU.C36_orthogonalize2_refuted"
   ],
   "note": "orthogonalize, orthonormalize, both projections, and orthogonal in 2 and 3 dimensions proved. orthogonal in 4+ dimensions and nullspace are sound when they return a nonzero result, but C36_orthogonal_iff / C36_nullspace_iff show they succeed exactly when a leading block of coordinates is nonsingular: independent inputs can give the zero vector, 'false', or a division by zero."
  },
  {
   "property": "C37",
   "status": "proved",
   "theorems": [
    "Geomc.Vec.C37_project_on",
    "Geomc.Vec.C37_fraction_on",
    "Geomc.Vec.C37_cross",
    "Geomc.Vec.C37_argmax",
    "Geomc.Vec.C37_argmin",
    "Geomc.Vec.C37_min_max_elem",
    "Geomc.Vec.C37_componentwise",
    "Geomc.Vec.C37_mix",
    "Geomc.Vec.C37_eq",
    "Geomc.Vec.C37_resized",
    "Geomc.Vec.C37_unit",
    "Geomc.Vec.C37_with_length",
    "Geomc.Vec.C37_reflect",
    "Geomc.Vec.C37_angle_to",
    "Geomc.Vec.C37_triangle_normal"
   ],
   "note": "reflect_about calls a neg() that does not exist; modelled with unary minus."
  },
  {
   "property": "C38",
   "status": "partial",
   "theorems": [
    "Geomc.Vec.C38_to_polar",
    "Geomc.Vec.C38_to_polar_unique",
    "Geomc.Vec.C38_from_polar_partial",
    "Geomc.Vec.C38_from_polar_refuted",
    "Geomc.Vec.C38_to_spherical",
    "Geomc.Vec.C38_from_spherical"
   ],
   "note": "to_polar, to_spherical and from_spherical proved. C38_from_polar_refuted: from_polar reads its argument as (angle, radius), so it does not invert to_polar."
  },
  {
   "property": "C39",
   "status": "partial",
   "theorems": [
    "Geomc.Vec.C39_rotate_iff",
    "Geomc.Vec.C39_rotate_partial",
    "Geomc.Vec.C39_rotate_refuted",
    "Geomc.Vec.C39_rotate_zero_axis",
    "Geomc.Vec.C39_rotate_about_iff",
    "Geomc.Vec.C39_rotate_about_refuted",
    "Geomc.Vec.C39_rotated",
    "Geomc.Vec.C39_align"
   ],
   "note": "Vec3::rotate has a wrong third component: C39_rotate_iff says exactly when it is the rotation. C39_rotate_about_iff likewise for rotation about a centre. Vec2::rotate(center) does not compile. rotated() and align proved; align is undefined for exactly opposite directions."
  },
  {
   "property": "C40",
   "status": "partial",
   "theorems": [
    "Geomc.Quat.C40_mul",
    "Geomc.Quat.C40_conj",
    "Geomc.Quat.C40_laws",
    "Geomc.Quat.C40_compose",
    "Geomc.Quat.C40_rotation",
    "Geomc.Quat.C40_axis_angle",
    "Geomc.Quat.C40_direction_align_iff",
    "Geomc.Quat.C40_direction_align_refuted",
    "Geomc.Quat.C40_axis_angle_real",
    "Geomc.Quat.C40_to_axis_angle",
    "Geomc.Quat.C40_to_angular_velocity"
   ],
   "note": "Algebra, rotation, composition, axis-angle in both directions proved. C40_direction_align_iff/_refuted: rotation_direction_align turns by twice the angle, right only if the directions are already aligned. rotation_scale and slerp do not compile; to_axis_angle only instantiates for double."
  },
  {
   "property": "C41",
   "status": "partial",
   "theorems": [
    "Geomc.Affine.C41_transformation",
    "Geomc.Affine.C41_singular_refuted",
    "Geomc.Affine.C41_history",
    "Geomc.Affine.C41_equality",
    "Geomc.Affine.C41_self_divide_iff",
    "Geomc.Affine.C41_self_divide_refuted"
   ],
   "note": "Every history of construction, composition, assignment and division keeps the stored inverse consistent, except: C41_self_divide_refuted, `xf /= xf` reads what it overwrites (C41_self_divide_iff: right only for the identity); C41_singular_refuted, transformation() of a singular matrix of size 2-4 silently keeps the identity as inverse."
  },
  {
   "property": "C42",
   "status": "proved",
   "theorems": [
    "Geomc.Affine.C42_compose",
    "Geomc.Affine.C42_assign",
    "Geomc.Affine.C42_directions"
   ],
   "note": ""
  },
  {
   "property": "C43",
   "status": "partial",
   "theorems": [
    "Geomc.Affine.C43_coordinate",
    "Geomc.Affine.C43_axis",
    "Geomc.Affine.C43_center",
    "Geomc.Affine.C43_quat",
    "Geomc.Affine.C43_direction_align",
    "Geomc.Affine.C43_direction_align_opposite_iff",
    "Geomc.Affine.C43_direction_align_refuted",
    "Geomc.Affine.C43_add"
   ],
   "note": "All rotation constructors proved. C43_direction_align_refuted: exactly opposite directions always give a half turn about y; C43_direction_align_opposite_iff: right only if the direction has no y component."
  },
  {
   "property": "C44",
   "status": "partial",
   "theorems": [
    "Geomc.Vec.C44_at_multiple",
    "Geomc.Vec.C44_at_distance",
    "Geomc.Vec.C44_project",
    "Geomc.Vec.C44_dist2_iff",
    "Geomc.Vec.C44_dist2_refuted"
   ],
   "note": "C44_dist2_refuted: dist2 divides the squared distance by the length of the offset; C44_dist2_iff says when it is right. sdf does not compile."
  },
  {
   "property": "C45",
   "status": "partial",
   "theorems": [
    "Geomc.Rect.C45_contains",
    "Geomc.Rect.C45_union",
    "Geomc.Rect.C45_inter",
    "Geomc.Rect.C45_unit",
    "Geomc.Rect.C45_unit_refuted",
    "Geomc.Rect.C45_points",
    "Geomc.Rect.C45_subset",
    "Geomc.Rect.C45_subset_refuted",
    "Geomc.Rect.C45_prod",
    "Geomc.Rect.C45_spanning",
    "Geomc.Rect.C45_translate",
    "Geomc.Rect.C45_minkowski",
    "Geomc.Rect.C45_minkowski_refuted",
    "Geomc.Rect.C45_dilated",
    "Geomc.Rect.C45_point_minus_refuted",
    "Geomc.Rect.C45_exclude_refuted",
    "Geomc.Rect.C45_scale",
    "Geomc.Rect.C45_scale_refuted",
    "Geomc.Rect.C45_unscale"
   ],
   "note": "All set algebra proved for boxes with points; intersection, product and translation for all. Refuted: an inverted box is not the unit of union unless it is the default box (C45_unit_refuted), Minkowski sum and scaling of empty boxes have points, `p - rect` is `rect - p`, and `rect - rect` always returns the default box and overwrites its operand."
  },
  {
   "property": "C46",
   "status": "partial",
   "theorems": [
    "Geomc.Rect.C46_intersects_partial",
    "Geomc.Rect.C46_intersects_refuted"
   ],
   "note": "C46_intersects_partial says exactly when the test errs: on boxes that share points it says no iff they merely touch on some axis. Refuted for touching boxes, integer boxes sharing a face of cells, a point box with itself, and inverted boxes."
  },
  {
   "property": "C47",
   "status": "partial",
   "theorems": [
    "Geomc.Rect.C47_clip",
    "Geomc.Rect.C47_project_1d",
    "Geomc.Rect.C47_project_iff",
    "Geomc.Rect.C47_project_refuted",
    "Geomc.Rect.C47_sdf_sign",
    "Geomc.Rect.C47_sdf_iff"
   ],
   "note": "clip and dist2 proved. C47_project_iff: project always returns the nearest corner, which in two and more dimensions is the nearest boundary point only if no coordinate is strictly between the extremes; sdf has the right sign but the wrong magnitude accordingly."
  },
  {
   "property": "C48",
   "status": "partial",
   "theorems": [
    "Geomc.Rect.C48_remap",
    "Geomc.Rect.C48_remap_cube",
    "Geomc.Rect.C48_unmap_undefined",
    "Geomc.Rect.C48_support",
    "Geomc.Rect.C48_contact",
    "Geomc.Rect.C48_contact_refuted",
    "Geomc.Rect.C48_contact_float_refuted"
   ],
   "note": "remap, unmap, support proved; contact_vector proved for exact integer-like types (out of overlap, in contact, shortest). Refuted: for integer boxes the moved box still shares a cell; for floating point the function starts with an out-of-range conversion and is undefined."
  },
  {
   "property": "C49",
   "status": "partial",
   "theorems": [
    "Geomc.Rect.C49_ray",
    "Geomc.Rect.C49_ray_refuted"
   ],
   "note": "Exact for boxes with points; C49_ray_refuted: an inverted (empty) box reports hits."
  },
  {
   "property": "C50",
   "status": "partial",
   "theorems": [
    "Geomc.Shape.C50_contains",
    "Geomc.Shape.C50_sdf",
    "Geomc.Shape.C50_project",
    "Geomc.Shape.C50_support",
    "Geomc.Shape.C50_bounds",
    "Geomc.Shape.C50_ray",
    "Geomc.Shape.C50_ray_refuted",
    "Geomc.Shape.C50_spheres_partial",
    "Geomc.Shape.C50_spheres_refuted",
    "Geomc.Shape.C50_box_partial",
    "Geomc.Shape.C50_box_refuted"
   ],
   "note": "contains, sdf, project, support, bounds and ray intersection proved for nonnegative radii (C50_ray_refuted: a ray without direction inside the sphere reports a miss). C50_spheres_partial: the sphere-sphere test ignores the other radius, so it is right exactly when the center of the other sphere settles it. C50_box_partial: the sphere-rectangle test ignores the center and answers for a sphere centered at (r,...,r)."
  },
  {
   "property": "C51",
   "status": "partial",
   "theorems": [
    "Geomc.Shape.C51_sdf",
    "Geomc.Shape.C51_sphere",
    "Geomc.Shape.C51_support",
    "Geomc.Shape.C51_bounds",
    "Geomc.Shape.C51_project",
    "Geomc.Shape.C51_project_refuted"
   ],
   "note": "sdf, contains, support, bounds, sphere test proved for distinct ends; with coinciding ends sdf and contains divide by zero. nearest_axis_point, project and normal do not compile as written (clamp of mixed types); modelled with converted bounds. project proved off the axis; C51_project_refuted: a point on the axis is returned unchanged."
  },
  {
   "property": "C52",
   "status": "partial",
   "theorems": [
    "Geomc.Shape.C52_contains_iff",
    "Geomc.Shape.C52_contains_refuted",
    "Geomc.Shape.C52_sdf_outside",
    "Geomc.Shape.C52_sdf_inside_refuted",
    "Geomc.Shape.C52_project",
    "Geomc.Shape.C52_project_refuted",
    "Geomc.Shape.C52_support",
    "Geomc.Shape.C52_bounds",
    "Geomc.Shape.C52_ray",
    "Geomc.Shape.C52_ray_refuted"
   ],
   "note": "C52_contains_iff: contains is the cylinder without its far cap (C52_contains_refuted). sdf is the distance outside; C52_sdf_inside_refuted: it is zero at every inside point. project is nearest off the line of the axis and divides by zero on it (C52_project_refuted). support proved; undefined exactly along the axis. bounds minimal. Ray intersection exact except along the wall (C52_ray_refuted). Undefined for coinciding ends."
  },
  {
   "property": "C53",
   "status": "partial",
   "theorems": [
    "Geomc.Shape.C53_dil_sdf",
    "Geomc.Shape.C53_dil_contains_iff",
    "Geomc.Shape.C53_dil_contains_refuted",
    "Geomc.Shape.C53_dil_support",
    "Geomc.Shape.C53_dil_bounds",
    "Geomc.Shape.C53_dil_project",
    "Geomc.Shape.C53_dil_project_refuted",
    "Geomc.Shape.C53_roundrect",
    "Geomc.Shape.C53_ends",
    "Geomc.Shape.C53_ext_contains",
    "Geomc.Shape.C53_ext_sdf",
    "Geomc.Shape.C53_ext_project",
    "Geomc.Shape.C53_ext_support",
    "Geomc.Shape.C53_ext_bounds",
    "Geomc.Shape.C53_ext_ray",
    "Geomc.Shape.C53_fru_contains",
    "Geomc.Shape.C53_fru_support",
    "Geomc.Shape.C53_fru_bounds",
    "Geomc.Shape.C53_fru_ray_partial",
    "Geomc.Shape.C53_fru_ray_inward_partial",
    "Geomc.Shape.C53_fru_ray_inward_refuted",
    "Geomc.Shape.C53_fru_ray_edge_refuted",
    "Geomc.Shape.C53_fru_ray_axial_refuted",
    "Geomc.Shape.C53_fru_ray_refuted"
   ],
   "note": "Extrusion: contains, sdf, project, support, bounds, rays all proved. Frustum: contains, support, bounds proved; Frustum rays: C53_fru_ray_partial: exact for rays that do not run to infinity inside the cone and whose line's nearest point to the tip is not level with the tip; C53_fru_ray_inward_partial: exact for rays to infinity inside the cone that start on the right side; C53_fru_ray_inward_refuted: every other such ray that starts inside is told it misses; C53_fru_ray_axial_refuted: the answer for a ray parallel to the axis does not depend on where it is across the axis; C53_fru_ray_refuted: witnesses for rays through the tip, parallel to the axis, and in the plane of the tip. C53_fru_ray_edge_refuted: every ray pointing along a wall (at an end of the chord in which its plane meets the base) divides by zero. Dilation of convex shapes: sdf, support, bounds, project proved; C53_dil_contains_iff: contains leaves out the surface (refuted); project divides by zero on the surface of the wrapped shape. dilate() mixes types in std::max and only compiles for int coordinates."
  },
  {
   "property": "C54",
   "status": "partial",
   "theorems": [
    "Geomc.Shape.C54_contains",
    "Geomc.Shape.C54_support",
    "Geomc.Shape.C54_bounds",
    "Geomc.Shape.C54_ray",
    "Geomc.Shape.C54_rect_support",
    "Geomc.Shape.C54_rect_bounds",
    "Geomc.Shape.C54_rect_bounds_refuted",
    "Geomc.Shape.C54_volume_refuted",
    "Geomc.Shape.C54_volume_partial",
    "Geomc.Shape.C54_mul",
    "Geomc.Shape.C54_div",
    "Geomc.Shape.C54_assign",
    "Geomc.Shape.C54_oriented_bounds"
   ],
   "note": "Generic placed shapes: contains, support, bounds, rays and operators all proved for any transform whose stored inverse is its inverse (C41 proves that of all transforms the library makes). Placed boxes: support, bounds up to 30 dimensions (C54_rect_bounds_refuted: 1 << N overflows beyond). C54_volume_refuted: the volume of an upright unit box is zero from two dimensions on, because of the determinant of C34; in one dimension it is signed. The overlap test of placed boxes is C58."
  },
  {
   "property": "C55",
   "status": "partial",
   "theorems": [
    "Geomc.Shape.C55_through",
    "Geomc.Shape.C55_distance",
    "Geomc.Shape.C55_contains",
    "Geomc.Shape.C55_project",
    "Geomc.Shape.C55_simplex_2_3",
    "Geomc.Shape.C55_simplex",
    "Geomc.Shape.C55_contains_shape",
    "Geomc.Shape.C55_intersects_iff",
    "Geomc.Shape.C55_intersects_refuted",
    "Geomc.Shape.C55_sphere_iff",
    "Geomc.Shape.C55_sphere_refuted",
    "Geomc.Shape.C55_hull_refuted",
    "Geomc.Shape.C55_apply_iff",
    "Geomc.Shape.C55_apply_inverse_iff",
    "Geomc.Shape.C55_apply_refuted",
    "Geomc.Shape.C55_dilate_refuted",
    "Geomc.Shape.C55_default"
   ],
   "note": "Construction, distance, containment, projection proved. Refuted: transforms (right exactly if the translation is along the new plane; a translation moves the plane the opposite way), intersects with convex shapes (touching from below is missed; exact meaning proved), with spheres (right only if touching from above or strictly below), with hulls (always false), dilate (moves the plane the wrong way)."
  },
  {
   "property": "C56",
   "status": "partial",
   "theorems": [
    "Geomc.Shape.C56_construct",
    "Geomc.Shape.C56_insert",
    "Geomc.Shape.C56_exclude",
    "Geomc.Shape.C56_transform",
    "Geomc.Shape.C56_eq",
    "Geomc.Shape.C56_support",
    "Geomc.Shape.C56_bounds",
    "Geomc.Shape.C56_contains",
    "Geomc.Shape.C56_contains_degenerate",
    "Geomc.Shape.C56_degenerate_refuted",
    "Geomc.Shape.C56_ray",
    "Geomc.Shape.C56_ray_refuted",
    "Geomc.Shape.C56_flat_ray_refuted",
    "Geomc.Shape.C56_thin_ray",
    "Geomc.Shape.C56_facing",
    "Geomc.Shape.C56_facing_refuted",
    "Geomc.Shape.C56_volume",
    "Geomc.Shape.C56_volume_refuted",
    "Geomc.Shape.C56_measure",
    "Geomc.Shape.C56_measure_refuted"
   ],
   "note": "Proved for every dimension: construction, insertion, exclusion, transformation and equality act on the vertex list (C56_construct, _insert, _exclude, _transform, _eq); support and bounds are those of the convex hull; containment is non-negative barycentric weights for affinely independent vertices (C56_contains) and a division by zero otherwise (C56_degenerate_refuted); rays (C56_ray), facing (points, edges, full simplexes) and volume (1 to 3 dimensions). Refuted: a ray can be given a one-point hit on a simplex it misses (C56_ray_refuted); every ray that hits an N-vertex simplex in 2 to 4 dimensions reads past the end of a vector (C56_flat_ray_refuted); a triangle in space is faced by points outside it; volumes vanish from 4 dimensions on and the measure of a full simplex is signed. C56_measure: segments in every dimension and triangles in space have their length and area; C56_measure_refuted: every other flat simplex with perpendicular edges measures zero."
  },
  {
   "property": "C57",
   "status": "proved",
   "theorems": [
    "Geomc.Shape.C57_disjoint"
   ],
   "note": "C57_disjoint, for every dimension, limit and leftover state: separation_axis separates with a gap of at least its own length. Support functions are only assumed right for nonzero directions."
  },
  {
   "property": "C58",
   "status": "partial",
   "theorems": [
    "Geomc.Shape.C58_separates",
    "Geomc.Shape.C58_sound",
    "Geomc.Shape.C58_complete2",
    "Geomc.Shape.C58_complete3",
    "Geomc.Shape.C58_oriented",
    "Geomc.Shape.C58_oriented_sound",
    "Geomc.Shape.C58_touching_refuted"
   ],
   "note": "Both directions proved for all invertible placements (shears included) in 2 and 3 dimensions: C58_separates and C58_sound over any ordered field, C58_complete2/3 over the reals (extreme directions of the sum of the boxes are classified, Hahn-Banach supplies the separator), C58_oriented for two placed boxes. Fits says the type can hold the compared values (exists_fits). C58_touching_refuted: boxes that only touch are reported apart or overlapping depending on which axis separates them. In other dimensions the call is to a private member and does not compile."
  },
  {
   "property": "C59",
   "status": "proved",
   "theorems": [
    "Geomc.Index.C59_worst",
    "Geomc.Index.C59_worst_tight",
    "Geomc.Index.C59_lower",
    "Geomc.Index.C59_nearest"
   ],
   "note": "C59_worst and C59_lower are the two bounds, C59_worst_tight says the first is the best possible, C59_nearest that the search is exact on every tree whose boxes are tight and whose nodes have at most 16 children, for points, boxes and any objects that reach the faces of their bounds. Trees built by the class are not like that: C80. The const overload of nearest and the helpers for pointers, pairs and Bounded do not compile."
  },
  {
   "property": "C60",
   "status": "partial",
   "theorems": [
    "Geomc.Bins.C60_cells",
    "Geomc.Bins.C60_ok",
    "Geomc.Bins.C60_query",
    "Geomc.Bins.C60_found",
    "Geomc.Bins.C60_near",
    "Geomc.Bins.C60_face_refuted"
   ],
   "note": "C60_cells: each cell of the block is inspected once. C60_query: exactly which items are found. C60_found: every item of the region is found unless it lies on an upper face between two cells; C60_face_refuted: those never are. C60_near: nothing found is a cell or more away. query(region) does not compile."
  },
  {
   "property": "C61",
   "status": "partial",
   "theorems": [
    "Geomc.Duals.C61_arithmetic",
    "Geomc.Duals.C61_division",
    "Geomc.Duals.C61_fused",
    "Geomc.Duals.C61_scalar_minus_refuted"
   ],
   "note": "All operators proved except scalar - Dual: C61_scalar_minus_refuted shows its derivative is right only where the operand's derivative is zero (sign not flipped). diff_of_products on Duals does not compile (passes Duals where numbers are expected), so it is not modelled."
  },
  {
   "property": "C62",
   "status": "partial",
   "theorems": [
    "Geomc.Duals.C62_entire",
    "Geomc.Duals.C62_domain",
    "Geomc.Duals.C62_atan2",
    "Geomc.Duals.C62_tan_refuted",
    "Geomc.Duals.C62_exp_refuted",
    "Geomc.Duals.C62_pow_refuted",
    "Geomc.Duals.C62_abs",
    "Geomc.Duals.C62_min_ne",
    "Geomc.Duals.C62_max_ne",
    "Geomc.Duals.C62_max_policy_refuted",
    "Geomc.Duals.C62_powSD",
    "Geomc.Duals.C62_powSD_policy_refuted",
    "Geomc.Duals.C62_floor",
    "Geomc.Duals.C62_ceil",
    "Geomc.Duals.C62_min_tie",
    "Geomc.Duals.C62_max_tie",
    "Geomc.Duals.C62_abs_zero_refuted",
    "Geomc.Duals.C62_min_tie_policies",
    "Geomc.Duals.C62_abs_tie_policies",
    "Geomc.Duals.C62_step_policies",
    "Geomc.Duals.C62_programs"
   ],
   "note": "sin, cos, atan, asin, acos, atan2, log, sqrt, pow(Dual,scalar), abs, min, floor, ceil proved, and every program composed of them (C62_programs). Refuted: tan and exp (sign), pow(Dual,Dual) (divides by the exponent), max and pow(scalar,Dual) with any policy but Right (value replaced by the derivative), abs at zero with a decreasing argument."
  },
  {
   "property": "C63",
   "status": "partial",
   "theorems": [
    "Geomc.Duals.C63_compare",
    "Geomc.Duals.C63_element",
    "Geomc.Duals.C63_policy_refuted"
   ],
   "note": "Comparisons and element conversion proved. C63_policy_refuted: converting between policies replaces the value by the derivative. Digest: C12_dual_refuted."
  },
  {
   "property": "C64",
   "status": "proved",
   "theorems": [
    "Geomc.Basis.C64_chebyshev",
    "Geomc.Basis.C64_chebyshev_trig",
    "Geomc.Basis.C64_legendre_poly",
    "Geomc.Basis.C64_legendre_orthogonal",
    "Geomc.Basis.C64_legendre_integral",
    "Geomc.Basis.C64_associated",
    "Geomc.Basis.C64_overloads"
   ],
   "note": "Legendre polynomials characterised by degree, value at 1 and orthogonality; associated ones by the m-th derivative."
  },
  {
   "property": "C65",
   "status": "partial",
   "theorems": [
    "Geomc.Perlin.C65_differentiable",
    "Geomc.Perlin.C65_continuous",
    "Geomc.Perlin.C65_zero",
    "Geomc.Perlin.C65_gradient",
    "Geomc.Perlin.C65_gradient_1d_refuted",
    "Geomc.Perlin.C65_index_refuted",
    "Geomc.Perlin.C65_index_1d"
   ],
   "note": "Zero at lattice points, differentiable everywhere, and gradient exact at every point for every dimension except one, for every assignment of lattice gradients. Refuted: the one-dimensional gradient reads an uninitialised accumulator; the table index overflows signed arithmetic for every practical point in two or more dimensions."
  },
  {
   "property": "C66",
   "status": "partial",
   "theorems": [
    "Geomc.Path.C66_knot",
    "Geomc.Path.C66_after",
    "Geomc.Path.C66_before",
    "Geomc.Path.C66_negative_refuted",
    "Geomc.Path.C66_defined",
    "Geomc.Path.C66_velocity",
    "Geomc.Path.C66_between",
    "Geomc.Path.C66_velocity_limits"
   ],
   "note": "Proved for parameters above -1. C66_negative_refuted: parameters at or below -1 are undefined (conversion to unsigned before the sign test)."
  },
  {
   "property": "C67",
   "status": "partial",
   "theorems": [
    "Geomc.Tree.C67_partial",
    "Geomc.Tree.C67_insert_child",
    "Geomc.Tree.C67_insert_item",
    "Geomc.Tree.C67_split",
    "Geomc.Tree.C67_find_parent",
    "Geomc.Tree.C67_root_range_refuted",
    "Geomc.Tree.C67_item_order_refuted",
    "Geomc.Tree.C67_node_order_refuted",
    "Geomc.Tree.C67_split_order_refuted"
   ],
   "note": "C67_partial: after any sequence of insertions of nodes and items, splits and removals of empty leaves, the tree is a tree, every node is in the list once and below its parent, the items of each leaf are contiguous, counts are sums over children. C67_insert_child, C67_insert_item, C67_split, C67_find_parent give the effect of the operations. Refuted by reachable witnesses: C67_root_range_refuted (an inner node's range can miss items of its children), C67_item_order_refuted (the order of items can differ from that of their leaves), C67_node_order_refuted (the node list is not in the documented breadth-first order), C67_split_order_refuted (split does not keep the order). insert_child_nodes, insert_items, adopt and erase(item) do not compile when instantiated and are not modelled."
  },
  {
   "property": "C68",
   "status": "partial",
   "theorems": [
    "Geomc.Sampler.C68_box",
    "Geomc.Sampler.C68_ball",
    "Geomc.Sampler.C68_ball_radius",
    "Geomc.Sampler.C68_disk",
    "Geomc.Sampler.C68_unit",
    "Geomc.Sampler.C68_unit_refuted",
    "Geomc.Sampler.C68_unit_radius",
    "Geomc.Sampler.C68_shell",
    "Geomc.Sampler.C68_shell_in",
    "Geomc.Sampler.C68_cap",
    "Geomc.Sampler.C68_cap_dir_partial",
    "Geomc.Sampler.C68_cap_dir_refuted",
    "Geomc.Sampler.C68_solidcap_partial",
    "Geomc.Sampler.C68_oriented_disk",
    "Geomc.Sampler.C68_arc",
    "Geomc.Sampler.C68_solidarc_refuted",
    "Geomc.Sampler.C68_solidarc_zero_refuted"
   ],
   "note": "Exact sets of outcomes: C68_box, C68_ball, C68_ball_radius, C68_disk, C68_unit, C68_unit_radius, C68_shell, C68_cap, C68_cap_dir_partial, C68_solidcap_partial, C68_oriented_disk, C68_arc. Refuted: C68_unit_refuted (the origin may be drawn, and is then divided by zero), C68_cap_dir_refuted (about the negative z-axis, the cap returned is the opposite one; likewise solidcap), C68_solidarc_refuted (length and angle are exchanged). The samplers of SampleGeometry.h (shapes, simplexes) do not compile: a member initialiser names a base class template without its arguments."
  },
  {
   "property": "C69",
   "status": "partial",
   "theorems": [
    "Geomc.Rast.C69_copy",
    "Geomc.Rast.C69_linear",
    "Geomc.Rast.C69_range",
    "Geomc.Rast.C69_domain",
    "Geomc.Rast.C69_negative_refuted",
    "Geomc.Rast.C69_dynamic_overrun_refuted"
   ],
   "note": "Proved for grid positions >= 0. C69_negative_refuted: truncation towards zero makes sampling extrapolate on (-1,0). C69_dynamic_overrun_refuted: the run-time dispatched overload copies 3^M samples into a 2^M buffer."
  },
  {
   "property": "C70",
   "status": "proved",
   "theorems": [
    "Geomc.SH.C70_orthonormal",
    "Geomc.SH.C70_project",
    "Geomc.SH.C70_eval",
    "Geomc.SH.C70_eval_dot_basis",
    "Geomc.SH.C70_convolve"
   ],
   "note": ""
  },
  {
   "property": "C71",
   "status": "partial",
   "theorems": [
    "Geomc.SH.C71_eval",
    "Geomc.SH.C71_spot",
    "Geomc.SH.C71_ofZH_eval",
    "Geomc.SH.C71_roundtrip_refuted",
    "Geomc.SH.C71_dot_refuted",
    "Geomc.SH.C71_project_refuted"
   ],
   "note": "eval, generate_spot and conversion to spherical harmonics proved. Refuted: conversion back (factor 2l-1 instead of 2l+1), dot with fewer right-hand bands (reads past the end), project."
  },
  {
   "property": "C72",
   "status": "partial",
   "theorems": [
    "Geomc.Mtx.C72_apply",
    "Geomc.Mtx.C72_reset_refuted"
   ],
   "note": "The reordering is proved for every permutation. C72_reset_refuted: the head of each cycle keeps its old index, so p is not the identity afterwards."
  },
  {
   "property": "C73",
   "status": "proved",
   "theorems": [
    "Geomc.LU.C73_plu",
    "Geomc.LU.C73_lup"
   ],
   "note": "C73_plu and C73_lup."
  },
  {
   "property": "C74",
   "status": "partial",
   "theorems": [
    "Geomc.Quat.C74_exp",
    "Geomc.Quat.C74_log",
    "Geomc.Quat.C74_log_exp",
    "Geomc.Quat.C74_log_refuted",
    "Geomc.Quat.C74_pow",
    "Geomc.Quat.C74_pow_refuted"
   ],
   "note": "exp is the exponential series for all q; exp(log q)=q and log(exp q)=q away from the real axis; pow obeys the law of exponents and gives q^n there. Refuted: log and pow divide by zero exactly on real quaternions (pow of zero gives one), and an integer exponent truncates the angle."
  },
  {
   "property": "C75",
   "status": "partial",
   "theorems": [
    "Geomc.Affine.C75_enlarge",
    "Geomc.Affine.C75_inverse_iff",
    "Geomc.Affine.C75_truncate",
    "Geomc.Affine.C75_truncate_refuted",
    "Geomc.Affine.C75_inverse_refuted"
   ],
   "note": "The forward map is right in both directions. C75_inverse_refuted: the translation of the inverse is not copied when enlarging (C75_inverse_iff: consistent iff there is no translation). C75_truncate_refuted: the truncated inverse is not the inverse of the truncation."
  },
  {
   "property": "C76",
   "status": "partial",
   "theorems": [
    "Geomc.Rect.C76_volume_real",
    "Geomc.Rect.C76_volume_int",
    "Geomc.Rect.C76_construct_real",
    "Geomc.Rect.C76_resize_real",
    "Geomc.Rect.C76_fitted",
    "Geomc.Rect.C76_fitted_refuted",
    "Geomc.Rect.C76_corner_int",
    "Geomc.Rect.C76_center_int",
    "Geomc.Rect.C76_resize_int",
    "Geomc.Rect.C76_int_refuted"
   ],
   "note": "volume, real construction and resizing proved, fitted_to minimal for positive sizes. Refuted: fitted_to loses negative signs; integer from_corner/from_center with nonpositive sizes have extra cells; integer center() is off by one for odd boxes around negative points; integer set_dimensions is right iff the parity is unchanged. Exact statements for each."
  },
  {
   "property": "C77",
   "status": "proved",
   "theorems": [
    "Geomc.Shape.C77_bounds",
    "Geomc.Shape.C77_contains",
    "Geomc.Shape.C77_sdf",
    "Geomc.Shape.C77_clip",
    "Geomc.Shape.C77_normal"
   ],
   "note": "sdf and clip over the reals and closed shapes; bounds, contains and normal over any ordered field. normal is undefined exactly for points that are their own projection."
  },
  {
   "property": "C78",
   "status": "partial",
   "theorems": [
    "Geomc.Shape.C78_clip",
    "Geomc.Shape.C78_project_thin",
    "Geomc.Shape.C78_project",
    "Geomc.Shape.C78_sdf",
    "Geomc.Shape.C78_normal",
    "Geomc.Shape.C78_normal_refuted",
    "Geomc.Shape.C78_four_refuted",
    "Geomc.Shape.C78_silent_refuted"
   ],
   "note": "C78_clip, C78_project_thin, C78_project and C78_sdf over any ordered field with square roots (clip needs none), in one to three dimensions, and in any number of dimensions for simplexes in general position (GenPos: no altitude of a face is parallel to the hyperplane where the last coordinate vanishes, and the first coordinates tell the points of a flat simplex apart). Without it: C78_four_refuted, in four dimensions every query of the standard simplex divides by zero; C78_silent_refuted, a facet whose normal is not found is passed over without notice, so that a point beyond it is clipped to itself and has a negative signed distance. C78_normal: off the surface the reported normal is a positive multiple of the vector from the projection to the point; C78_normal_refuted: so it is not a unit vector, and inside it points inward."
  },
  {
   "property": "C79",
   "status": "partial",
   "theorems": [
    "Geomc.Shape.C79_defined",
    "Geomc.Shape.C79_overlap",
    "Geomc.Shape.C79_exact",
    "Geomc.Shape.C79_limit_refuted",
    "Geomc.Shape.C79_four_refuted"
   ],
   "note": "C79_defined: in two and three dimensions there is always an answer, whatever the support functions return. C79_overlap: an answer that convex shapes meet is right unless the limit was reached. C79_exact: with m differences of support points and a limit of at least 2^m the test is exact. C79_limit_refuted: with the default limit of 10 the plane region under a parabola is reported to meet a point above it. C79_four_refuted: in four dimensions the test of two boxes, overlapping or apart, can divide by zero."
  },
  {
   "property": "C80",
   "status": "partial",
   "theorems": [
    "Geomc.Index.C80_objects_partial",
    "Geomc.Index.C80_pivot_refuted",
    "Geomc.Index.C80_same_refuted",
    "Geomc.Index.C80_arity_refuted",
    "Geomc.Index.C80_split",
    "Geomc.Index.C80_nonneg_refuted",
    "Geomc.Index.C80_nearest_refuted"
   ],
   "note": "C80_objects_partial: a tree that is built has each object once and no leaf is too big. Refuted: C80_nearest_refuted (the box of the upper half is made from the wrong objects, so nearest misses a point of the tree), C80_pivot_refuted (every choice of parameters but one, the default included, reads an uninitialised variable), C80_same_refuted (coinciding objects recurse forever), C80_nonneg_refuted (the pivot is the sum of the positions instead of their mean, so objects without negative coordinates are never separated and the recursion does not end), C80_arity_refuted. C80_split says which axis and pivot are used."
  },
  {
   "property": "C81",
   "status": "partial",
   "theorems": [
    "Geomc.Index.C81_children_partial",
    "Geomc.Index.C81_children_refuted",
    "Geomc.Index.C81_buffer_refuted",
    "Geomc.Index.C81_overflow_refuted"
   ],
   "note": "C81_children_partial: right for one level. C81_children_refuted: with two levels the children of a node include those of its next sibling. C81_overflow_refuted: more than 16 candidates overflow the buffer of the search; C81_buffer_refuted: a node may seem to have 32 children."
  },
  {
   "property": "C82",
   "status": "partial",
   "theorems": [
    "Geomc.Sampler.C82_shell_partial",
    "Geomc.Sampler.C82_shell_refuted"
   ],
   "note": "C82_shell_partial: right with inner radius zero, with equal radii and in one dimension. C82_shell_refuted: in all other cases no vectors near the inner sphere are returned, since the ratio of the radii is not raised to the n-th power; C68_solidcap_partial shows the same of solidcap, C68_solidarc_refuted of solidarc. For the other samplers the equations of C68 say that all of the set is reached."
  },
  {
   "property": "C83",
   "status": "partial",
   "theorems": [
    "Geomc.Sampler.C83_box",
    "Geomc.Sampler.C83_ball",
    "Geomc.Sampler.C83_unit",
    "Geomc.Sampler.C83_ball_radius_refuted",
    "Geomc.Sampler.C83_cap",
    "Geomc.Sampler.C83_cap_area",
    "Geomc.Sampler.C83_cap_dir",
    "Geomc.Sampler.C83_disk",
    "Geomc.Sampler.C83_arc"
   ],
   "note": "C83_box, C83_ball, C83_unit for any number of draws. C83_ball_radius_refuted: solidball(radius) multiplies a uniform sample of the ball by another random factor; its mean squared length is n/(n+2) of that of the ball, so it is not uniform in any dimension. C83_cap, C83_cap_area, C83_cap_dir: caps are uniform in area (spherical coordinates; Archimedes). C83_disk, C83_arc. Shells and solid caps are not uniform (C82)."
  },
  {
   "property": "C84",
   "status": "partial",
   "theorems": [
    "Geomc.Tree.C84_subtree_end_refuted",
    "Geomc.Tree.C84_root_partial",
    "Geomc.Tree.C84_find_parent_refuted",
    "Geomc.Tree.C84_query_refuted",
    "Geomc.Tree.C84_query_self_refuted",
    "Geomc.Tree.C84_query_partial"
   ],
   "note": "C84_subtree_end_refuted: for every node but the root that has children, subtree_end() is the node itself, in every reachable tree. C84_root_partial: for the root it is right. C84_find_parent_refuted, C84_query_refuted, C84_query_self_refuted: wrong answers on reachable trees. C84_query_partial: right if all children are leaves and subtree_end is not the node.  C67_find_parent: right for leaves."
  },
  {
   "property": "C85",
   "status": "partial",
   "theorems": [
    "Geomc.Tree.C85_flatten_root_partial",
    "Geomc.Tree.C85_flatten_refuted",
    "Geomc.Tree.C85_flatten_items_refuted",
    "Geomc.Tree.C85_clear_refuted",
    "Geomc.Tree.C85_erase_items_refuted",
    "Geomc.Tree.C85_erase_refuted",
    "Geomc.Tree.C85_erase_partial"
   ],
   "note": "C85_flatten_root_partial: right for the root, except its item range (C85_flatten_items_refuted). C85_flatten_refuted: for every other node with children, none is removed. C85_clear_refuted, C85_erase_items_refuted: undefined for every node with items. C85_erase_refuted: a child's children stay. C85_erase_partial: right for empty leaves."
  },
  {
   "property": "C86",
   "status": "partial",
   "theorems": [
    "Geomc.Tree.C86_eq_partial",
    "Geomc.Tree.C86_eq_refl",
    "Geomc.Tree.C86_eq_refuted",
    "Geomc.Tree.C86_range_items",
    "Geomc.Tree.C86_range_refuted",
    "Geomc.Tree.C86_range_child",
    "Geomc.Tree.C86_copy_refuted"
   ],
   "note": "C86_eq_partial: equality compares the sequences of nodes and items; C86_eq_refl. C86_eq_refuted: equal trees built in different orders are unequal. C86_range_items: right items; C86_range_refuted: the count is one for every range; C86_range_child: a child inserted then takes the items. C86_copy_refuted: the copy constructor is undefined for every tree."
  },
  {
   "property": "C87",
   "status": "proved",
   "theorems": [
    "Geomc.Storage.C87_unique",
    "Geomc.Storage.C87_self_move"
   ],
   "note": "C87_unique. C87_self_move: an object moved to itself becomes empty."
  },
  {
   "property": "C88",
   "status": "partial",
   "theorems": [
    "Geomc.Storage.C88_shared",
    "Geomc.Storage.C88_fixed_partial",
    "Geomc.Storage.C88_fixed",
    "Geomc.Storage.C88_fixed_refuted"
   ],
   "note": "C88_shared: dynamic storage. C88_fixed_partial: fixed size, if n is the size. C88_fixed_refuted: exactly if n is smaller, Storage reads past the elements; exactly if n is greater, UniqueStorage writes past the array."
  },
  {
   "property": "C89",
   "status": "partial",
   "theorems": [
    "Geomc.Shape.C89_ball",
    "Geomc.Shape.C89_cap",
    "Geomc.Shape.C89_cyl",
    "Geomc.Shape.C89_cyl_far_refuted",
    "Geomc.Shape.C89_cyl_axis_refuted",
    "Geomc.Shape.C89_default",
    "Geomc.Shape.C89_dil",
    "Geomc.Shape.C89_ext"
   ],
   "note": "C89_ball, C89_cap, C89_dil, C89_ext, C89_default. C89_cyl: right unless the point is outside the rim of the far cap. C89_cyl_far_refuted: there the near rim is used, and the result is wrong at every such point. C89_cyl_axis_refuted: undefined on the axis where the wall is no farther than the caps. Simplexes are C78."
  },
  {
   "property": "C90",
   "status": "partial",
   "theorems": [
    "Geomc.Shape.C90_convex",
    "Geomc.Shape.C90_support",
    "Geomc.Shape.C90_bounds",
    "Geomc.Shape.C90_sdf",
    "Geomc.Shape.C90_contains",
    "Geomc.Shape.C90_contains_partial"
   ],
   "note": "C90_convex, C90_support, C90_bounds, C90_sdf for every nesting; C90_contains without dilation. C90_contains_partial: with dilation, exact off the surface (surface points are left out, C53_dil_contains_refuted); stated for nestings of spheres and capsules by extruding and dilating."
  },
  {
   "property": "C91",
   "status": "partial",
   "theorems": [
    "Geomc.SH.C91_axis_partial",
    "Geomc.SH.C91_axis_refuted",
    "Geomc.SH.C91_axis_scaled",
    "Geomc.SH.C91_fixed_refuted"
   ],
   "note": "C91_axis_partial: exactly what is computed: the function is symmetric about the axis, but band l is multiplied by sqrt((2l+1)/4pi). C91_axis_refuted: so it differs from the zonal function in some direction, for every function but zero and every axis. C91_axis_scaled: right if the bands are scaled by sqrt(4pi/(2l+1)) beforehand. C91_fixed_refuted: a fixed size greater than that of the zonal function reads past it."
  },
  {
   "property": "C92",
   "status": "partial",
   "theorems": [
    "Geomc.SH.C92_convolve_partial",
    "Geomc.SH.C92_convolve_refuted",
    "Geomc.SH.C92_zonal_partial",
    "Geomc.SH.C92_zonal_refuted",
    "Geomc.SH.C92_zonal_bands_refuted"
   ],
   "note": "C92_convolve_refuted, C92_zonal_refuted: the result is not the convolution whenever function and kernel share a band; factors 4pi/(2l+1) and sqrt(4pi/(2l+1)) are missing per band. C92_convolve_partial, C92_zonal_partial: right if the kernel is scaled by these beforehand. C92_zonal_bands_refuted: a kernel with fewer bands is read past its end."
  },
  {
   "property": "C93",
   "status": "partial",
   "theorems": [
    "Geomc.SH.C93_lambertian",
    "Geomc.SH.C93_lambertian_order_refuted",
    "Geomc.SH.C93_diffuse_one",
    "Geomc.SH.C93_diffuse_nat",
    "Geomc.SH.C93_diffuse_add",
    "Geomc.SH.C93_diffuse_zero",
    "Geomc.SH.C93_normalize_refuted",
    "Geomc.SH.C93_normalize_bands_refuted"
   ],
   "note": "C93_lambertian for every order but 1; C93_lambertian_order_refuted: order 1 fills two bands. C93_diffuse_one, C93_diffuse_nat, C93_diffuse_add (positive coefficients), C93_diffuse_zero (no zero coefficient), all with respect to the convolve of the library. C93_normalize_refuted: normalize fixes band 1, not the integral; C93_normalize_bands_refuted: reads past a function of one band."
  },
  {
   "property": "C94",
   "status": "partial",
   "theorems": [
    "Geomc.Rast.C94_cubic",
    "Geomc.Rast.C94_quadratic_exact",
    "Geomc.Rast.C94_grid",
    "Geomc.Rast.C94_domain",
    "Geomc.Rast.C94_join",
    "Geomc.Rast.C94_dynamic_overrun_refuted",
    "Geomc.Rast.C94_range_refuted"
   ],
   "note": "C94_cubic, C94_grid, C94_quadratic_exact, C94_join for every dimension. C94_dynamic_overrun_refuted: the run-time dispatched overload copies 5^M samples into a 4^M buffer. C94_range_refuted records that, unlike the linear blend, the result may leave the range of the data."
  },
  {
   "property": "C95",
   "status": "proved",
   "theorems": [
    "Geomc.Flt.C95_diff",
    "Geomc.Flt.C95_sum",
    "Geomc.Flt.C95_relative",
    "Geomc.Flt.C95_multiply_add",
    "Geomc.Flt.C95_mix",
    "Geomc.Flt.C95_nearest"
   ],
   "note": "C95_diff, C95_sum (1.5 units in the last place, and exactly zero when the exact value is), C95_relative, C95_multiply_add, C95_mix. The exponent range is unbounded in the model: overflow and underflow are excluded. The complex and Dual variants of diff_of_products do not compile."
  },
  {
   "property": "C96",
   "status": "partial",
   "theorems": [
    "Geomc.SH.C96_scale",
    "Geomc.SH.C96_add_partial",
    "Geomc.SH.C96_add_refuted",
    "Geomc.SH.C96_constant",
    "Geomc.SH.C96_constant_refuted"
   ],
   "note": "C96_scale: *=, /= and unary minus act on the value in every direction. C96_add_partial: += of a function with no more bands adds the values; C96_add_refuted: bands the left operand lacks are dropped. C96_constant: += k adds k/sqrt(4 pi); C96_constant_refuted: so it never adds a constant k other than 0. operator+ reads an uninitialised loop variable and returns nothing (not modelled)."
  },
  {
   "property": "C97",
   "status": "proved",
   "theorems": [
    "Geomc.Rainbow.C97_periodic",
    "Geomc.Rainbow.C97_landmarks",
    "Geomc.Rainbow.C97_saturated",
    "Geomc.Rainbow.C97_injective",
    "Geomc.Rainbow.C97_continuous"
   ],
   "note": "C97_periodic, C97_landmarks, C97_saturated, C97_injective, C97_continuous (Lipschitz constant 6), over any linearly ordered field with a floor."
  },
  {
   "property": "C98",
   "status": "partial",
   "theorems": [
    "Geomc.Dims.C98_mul_partial",
    "Geomc.Dims.C98_mul_new",
    "Geomc.Dims.C98_mul_refuted",
    "Geomc.Dims.C98_overrun_refuted",
    "Geomc.Dims.C98_vec_refuted",
    "Geomc.Dims.C98_dest",
    "Geomc.Dims.C98_mul_into",
    "Geomc.Dims.C98_rejected",
    "Geomc.Dims.C98_elementwise",
    "Geomc.Dims.C98_transpose",
    "Geomc.Dims.C98_inv",
    "Geomc.Dims.C98_copy",
    "Geomc.Dims.C98_equal",
    "Geomc.Dims.C98_diag_refuted",
    "Geomc.Dims.C98_diag_partial",
    "Geomc.Dims.C98_convert_refuted",
    "Geomc.Dims.C98_convert_partial"
   ],
   "note": "Exact characterisations: C98_mul_new, C98_dest, C98_mul_into, C98_elementwise, C98_transpose, C98_inv, C98_copy, C98_equal; C98_mul_partial for mul_acc when the shape of the destination is settled at compile time. C98_mul_refuted: with mixed fixed and dynamic types the inner dimensions are not compared, and C98_overrun_refuted: then the product reads past the right operand. C98_vec_refuted: dynamic matrix times vector into a vector. C98_diag_refuted, C98_diag_partial: m *= d does not compare the columns of the product. C98_convert_refuted, C98_convert_partial: the conversion constructor has no run-time check. mul(into, ...) with a vector argument does not compile."
  },
  {
   "property": "C99",
   "status": "partial",
   "theorems": [
    "Geomc.Make.C99_convert_partial",
    "Geomc.Make.C99_convert_refuted",
    "Geomc.Make.C99_data_partial",
    "Geomc.Make.C99_data_col",
    "Geomc.Make.C99_data_refuted",
    "Geomc.Make.C99_list_partial",
    "Geomc.Make.C99_list_refuted",
    "Geomc.Make.C99_spans_partial",
    "Geomc.Make.C99_spans_refuted",
    "Geomc.Make.C99_new_partial",
    "Geomc.Make.C99_new_refuted",
    "Geomc.Make.C99_new_fixed",
    "Geomc.Make.C99_transpose_view"
   ],
   "note": "With agreeing sizes: C99_new_partial (square; for other shapes C27), C99_new_fixed, C99_data_partial, C99_data_col, C99_list_partial, C99_spans_partial, C99_convert_partial, C99_transpose_view. Refuted for all sizes concerned: C99_data_refuted (arrays are said to be row-major but taken in the order of the layout), C99_new_refuted (a size argument for a fixed dimension is not ignored if the other is dynamic: overrun), C99_list_refuted and C99_spans_refuted (too many or few elements overrun or leave elements uninitialised), C99_convert_refuted (a larger dynamic matrix overruns a fixed one). as_transpose() compiles only for fully dynamic matrices."
  },
  {
   "property": "C100",
   "status": "partial",
   "theorems": [
    "Geomc.MtxIter.C100_matrix_partial",
    "Geomc.MtxIter.C100_matrix_refuted",
    "Geomc.MtxIter.C100_region_partial",
    "Geomc.MtxIter.C100_region_refuted"
   ],
   "note": "C100_matrix_partial: right for all dimensions except no columns and some rows; C100_matrix_refuted: then one element is visited per row. C100_region_partial: the elements up to and including the upper extreme are visited, in order; C100_region_refuted: it is documented to be exclusive, and its row and column are always visited."
  },
  {
   "property": "C101",
   "status": "partial",
   "theorems": [
    "Geomc.Duals.C101_program_partial",
    "Geomc.Duals.C101_square_refuted",
    "Geomc.Duals.C101_quotient_refuted",
    "Geomc.Duals.C101_self",
    "Geomc.Duals.C101_frame"
   ],
   "note": "Refuted for x *= x and x /= x: the value is overwritten before the right operand is read, so the derivative of x *= x is (x + x^2) dx instead of 2 x dx, and that of x /= x is (1 - x) dx instead of 0 (iff characterisations). Proved for all programs in which no variable is multiplied or divided by itself and no divisor vanishes."
  },
  {
   "property": "C102",
   "status": "partial",
   "theorems": [
    "Geomc.VecOps.C102_vector",
    "Geomc.VecOps.C102_scalar",
    "Geomc.VecOps.C102_mul",
    "Geomc.VecOps.C102_div",
    "Geomc.VecOps.C102_mul_assign_refuted",
    "Geomc.VecOps.C102_fraction_refuted",
    "Geomc.VecOps.C102_div_assign_refuted"
   ],
   "note": "C102_vector, C102_scalar: all dimensions and aliasings, operands of one type. C102_mul, C102_div: integer vectors and real scalars, result towards zero by less than one. Refuted: v *= s and v /= s convert the scalar first, and agree with v * s and v / s just when the scalar is an integer (C102_mul_assign_refuted, C102_div_assign_refuted); a scalar below one in size clears the vector, or divides by zero (C102_fraction_refuted)."
  },
  {
   "property": "C103",
   "status": "partial",
   "theorems": [
    "Geomc.Rast.C103_history",
    "Geomc.Rast.C103_new",
    "Geomc.Rast.C103_independent_partial",
    "Geomc.Rast.C103_copy_refuted",
    "Geomc.Rast.C103_abyss_refuted",
    "Geomc.Rast.C103_count",
    "Geomc.Rast.C103_count_refuted"
   ],
   "note": "C103_history and C103_new for all histories with positive extents, with copies sharing one table; C103_independent_partial for histories without copies. C103_copy_refuted: a write through a copy is always a write to the original. C103_abyss_refuted: the background value of a single-channel raster is indeterminate until set. C103_count and C103_count_refuted: samplecount() is the number of grid points times the number of channels. The sample(pt, edge, interp) with run-time arguments assigns to its const parameter and does not compile."
  },
  {
   "property": "C104",
   "status": "partial",
   "theorems": [
    "Geomc.Flt.C104_dot",
    "Geomc.Flt.C104_dot_comm",
    "Geomc.Flt.C104_dot_integers",
    "Geomc.Flt.C104_dot_axis",
    "Geomc.Flt.C104_mag2",
    "Geomc.Flt.C104_mag2_dot",
    "Geomc.Flt.C104_mag2_zero",
    "Geomc.Flt.C104_dist2",
    "Geomc.Flt.C104_dist2_comm",
    "Geomc.Flt.C104_mag",
    "Geomc.Flt.C104_dist",
    "Geomc.Flt.C104_unit",
    "Geomc.Flt.C104_cross",
    "Geomc.Flt.C104_cross_zero",
    "Geomc.Flt.C104_cross_antisymmetric_refuted"
   ],
   "note": "Holds except for antisymmetry: cross(u,v) and -cross(v,u) differ in the last bits, because only the second product is corrected; witnesses for 24 and 53 bits. Exponents are unbounded here; C106 treats underflow."
  },
  {
   "property": "C105",
   "status": "partial",
   "theorems": [
    "Geomc.Hash.C105_affine_refuted",
    "Geomc.Hash.C105_terminates",
    "Geomc.Hash.C105_equal",
    "Geomc.Hash.C105_last",
    "Geomc.Hash.C105_constants",
    "Geomc.Hash.C105_layout_refuted"
   ],
   "note": "Holds for values without affine transforms. Refuted for AffineTransform and everything containing one (oriented shapes): the specialisation of Digest declares size_t N where the class has index_t N, so by the rules for deducing template arguments it is never selected, and std::hash and geom::hash call each other forever. Refuted for matrices of different layouts: equal, but hashed in storage order. Digests of Simplex and Ray do not compile, nor do 128-bit digests of ordinary scalars."
  },
  {
   "property": "C106",
   "status": "partial",
   "theorems": [
    "Geomc.Flt.C106_products",
    "Geomc.Flt.C106_dot",
    "Geomc.Flt.C106_mag2",
    "Geomc.Flt.C106_mag",
    "Geomc.Flt.C106_sub",
    "Geomc.Flt.C106_mag_refuted",
    "Geomc.Flt.C106_dist_refuted",
    "Geomc.Flt.C106_cross_refuted",
    "Geomc.Flt.C106_round",
    "Geomc.Flt.C106_dot_all",
    "Geomc.Flt.C106_nearest"
   ],
   "note": "The accuracy statements hold. Refuted for all formats and dimensions: vectors whose components have squares below half the smallest float have length zero, so unit() divides by zero, different points have distance zero, and the cross product of perpendicular tiny vectors is zero. The code does not rescale. For overflow see C109."
  },
  {
   "property": "C107",
   "status": "partial",
   "theorems": [
    "Geomc.SH.C107_dot",
    "Geomc.SH.C107_unique",
    "Geomc.SH.C107_norm",
    "Geomc.SH.C107_best",
    "Geomc.SH.C107_reproduce",
    "Geomc.SH.C107_samples",
    "Geomc.SH.C107_samples_refuted",
    "Geomc.SH.C107_zonal",
    "Geomc.SH.C107_zonal_refuted"
   ],
   "note": "Proved for SphericalHarmonics. Refuted for ZonalHarmonics: the inner product of zonal functions weights band l by 4 pi/(2l+1), and dot leaves the weights out, so it is wrong for the square of every non-zero multiple of a single band. Refuted for the two documented recipes for sampling: the mean of the projected samples is the coefficient divided by 4 pi, so the sum has to be multiplied by 4 pi/N, not by 1/N or 1/(4 pi N)."
  },
  {
   "property": "C108",
   "status": "partial",
   "theorems": [
    "Geomc.Ieee.C108_contains",
    "Geomc.Ieee.C108_nan_refuted",
    "Geomc.Ieee.C108_unit_refuted",
    "Geomc.Ieee.C108_clip",
    "Geomc.Ieee.C108_clamp",
    "Geomc.Ieee.C108_vec_clamp_refuted",
    "Geomc.Ieee.C108_union",
    "Geomc.Ieee.C108_union_refuted",
    "Geomc.Ieee.C108_points",
    "Geomc.Ieee.C108_points_refuted",
    "Geomc.Ieee.C108_equal",
    "Geomc.Ieee.C108_inter",
    "Geomc.Ieee.C108_full",
    "Geomc.Ieee.C108_intersects",
    "Geomc.Ieee.C108_intersects_refuted",
    "Geomc.Ieee.C108_ray_num",
    "Geomc.Ieee.C108_ray_refuted",
    "Geomc.Ieee.C108_ray"
   ],
   "note": "Proved without NaN, for infinite coordinates as well; the interval of a ray is exact for exact arithmetic and free of NaN for any rounding. Refuted with NaN: every box, even one without points, contains the points all of whose coordinates are NaN (for instance the direction of a zero vector), overlaps a box of NaN and is hit all along by a ray of NaN; a | b ignores a NaN of b while a |= b takes it over; Rect::clip takes NaN to the lower extreme, geom::clamp to the upper one, and Vec::clamp keeps it. Refuted for infinities: the box of points that are all at positive infinity begins at the largest finite number. Vec2/Vec3::is_finite_real do not compile (is_real is in another namespace) and are not modelled. Rounding of the ray parameters is not part of this claim."
  },
  {
   "property": "C109",
   "status": "partial",
   "theorems": [
    "Geomc.Ieee.C109_dot",
    "Geomc.Ieee.C109_unit",
    "Geomc.Ieee.C109_unit_refuted",
    "Geomc.Ieee.C109_dist_refuted",
    "Geomc.Ieee.C109_sphere_refuted",
    "Geomc.Ieee.C109_dot_refuted",
    "Geomc.Ieee.C109_finite",
    "Geomc.Ieee.C109_format",
    "Geomc.Ieee.C109_double_refuted"
   ],
   "note": "Refuted: if the square of one coordinate overflows (2^512 for double, 2^64 for float), length and squared length are infinite and the direction is the zero vector; the distance of finite points can be infinite; a sphere whose squared radius overflows contains every finite point; the dot product of perpendicular vectors is plus or minus infinity depending on the order of the coordinates. Proved: the squared length is finite, with the usual error bound, as long as the exact one with room for rounding is below the largest number. A dot product that comes out finite is the one computed without a largest number, and within these limits length and direction are finite with the usual relative errors. Underflow is in C106."
  },
  {
   "property": "C110",
   "status": "partial",
   "theorems": [
    "Geomc.Flt.C110_to",
    "Geomc.Flt.C110_lower",
    "Geomc.Flt.C110_upper",
    "Geomc.Flt.C110_grid",
    "Geomc.Flt.C110_excess",
    "Geomc.Flt.C110_upper_refuted",
    "Geomc.Ieee.C110_far_refuted",
    "Geomc.Ieee.C110_to_finite"
   ],
   "note": "C110_to for rand(hi), C110_to_finite with overflow; C110_lower for the lower bound and monotonicity; C110_upper where hi - lo is a float (C110_grid: multiples of one power of two), C110_excess bounds the excess in general. C110_upper_refuted: for every precision and rounding to nearest rand(lo,hi) can exceed hi (in float, lo = -2^25 and hi = 3 can give 4). C110_far_refuted: where hi - lo overflows no result is finite."
  },
  {
   "property": "C111",
   "status": "partial",
   "theorems": [
    "Geomc.Flt.C111_vector",
    "Geomc.Flt.C111_matrix",
    "Geomc.Flt.C111_apply",
    "Geomc.Flt.C111_translate",
    "Geomc.Flt.C111_monomial",
    "Geomc.Flt.C111_ray",
    "Geomc.Flt.C111_plane",
    "Geomc.Flt.C111_plane_axis",
    "Geomc.Flt.C111_plane_refuted",
    "Geomc.Flt.C111_sphere",
    "Geomc.Flt.C111_sphere_points",
    "Geomc.Flt.C111_sphere_monotone",
    "Geomc.Flt.C111_sphere_refuted"
   ],
   "note": "C111_vector, C111_matrix, C111_apply, C111_translate, C111_monomial, C111_ray, C111_plane, C111_plane_axis, C111_sphere, C111_sphere_points, C111_sphere_monotone. C111_plane_refuted and C111_sphere_refuted: for every precision there are points on the wrong side of an oblique plane, or outside a sphere, that the tests accept."
  },
  {
   "property": "C112",
   "status": "partial",
   "theorems": [
    "Geomc.Shape.Traits.C112_ray",
    "Geomc.Shape.Traits.C112_bounded_partial",
    "Geomc.Shape.Traits.C112_convex_wrapper",
    "Geomc.Shape.Traits.C112_convex_partial",
    "Geomc.Shape.Traits.C112_convex_refuted",
    "Geomc.Shape.Traits.C112_sdf_partial",
    "Geomc.Shape.Traits.C112_sdf_refuted",
    "Geomc.Shape.Traits.C112_contains",
    "Geomc.Shape.Traits.C112_projectable_partial",
    "Geomc.Shape.Traits.C112_projectable_refuted"
   ],
   "note": "C112_ray: is_ray_intersectable is right. C112_contains: which types have contains(). C112_convex_partial: is_convex promises nothing wrong, but of a wrapper it says whether the wrapped shape can be tested with rays; so (C112_convex_refuted) whatever is made from a dilated shape is reported not to be convex. C112_sdf_refuted: has_sdf is true for every dilated shape, also if sdf() does not compile; C112_sdf_partial: else right. C112_projectable_partial, C112_projectable_refuted (simplexes). C112_bounded_partial: wrong exactly for as_any_convex. Traits of Plane do not compile (no elem_t)."
  },
  {
   "property": "C113",
   "status": "partial",
   "theorems": [
    "Geomc.LU.C113_plu",
    "Geomc.LU.C113_solve",
    "Geomc.LU.C113_inverse",
    "Geomc.LU.C113_failure",
    "Geomc.LU.C113_singular_refuted",
    "Geomc.LU.C113_exact"
   ],
   "note": "C113_plu, C113_solve, C113_inverse, C113_failure; C113_exact: without rounding these are the functions of C31-C33. C113_singular_refuted: failure does not mean that the matrix is singular: at every precision it is also reported for one that is not. Not covered: overflow and underflow, decomp_lup, sizes below five with closed formulas, and determinants."
  },
  {
   "property": "C114",
   "status": "partial",
   "theorems": [
    "Geomc.LU.C114_sound",
    "Geomc.LU.C114_complete",
    "Geomc.LU.C114_diagonal",
    "Geomc.LU.C114_real",
    "Geomc.LU.C114_border_refuted",
    "Geomc.LU.C114_exact"
   ],
   "note": "C114_sound, C114_real, C114_complete, C114_diagonal; C114_exact: without rounding this is the function of C35. C114_border_refuted: the returned flag is not exact: with four bits a positive definite matrix is refused and one that is not is accepted. Not covered: overflow and underflow."
  },
  {
   "property": "C115",
   "status": "partial",
   "theorems": [
    "Geomc.Quat.C115_product",
    "Geomc.Quat.C115_chain",
    "Geomc.Quat.C115_rotate",
    "Geomc.Quat.C115_rotations",
    "Geomc.Quat.C115_units_refuted",
    "Geomc.Quat.C115_half_turns",
    "Geomc.Quat.C115_third_turn_refuted",
    "Geomc.Quat.C115_axis_angle",
    "Geomc.Quat.C115_exact"
   ],
   "note": "C115_product, C115_chain, C115_rotate, C115_rotations, C115_axis_angle, C115_half_turns; C115_exact: without rounding these are the functions of C40. C115_units_refuted: unit quaternions, which the documentation asks for, do not exist in floating point except for the 24 units of the Hurwitz order, so rotations change lengths. C115_third_turn_refuted: a rotation by one of these is not exact: at every precision a third of a turn about the diagonal, which only exchanges coordinates, loses a small component. Not covered: overflow and underflow; the accuracy of std::sin and std::cos."
  },
  {
   "property": "C116",
   "status": "partial",
   "theorems": [
    "Geomc.LU.C116_det2",
    "Geomc.LU.C116_inv2",
    "Geomc.LU.C116_det3",
    "Geomc.LU.C116_inv3",
    "Geomc.LU.C116_inv4",
    "Geomc.LU.C116_accurate3",
    "Geomc.LU.C116_accurate4",
    "Geomc.LU.C116_regular_refuted",
    "Geomc.LU.C116_singular_refuted",
    "Geomc.LU.C116_exact"
   ],
   "note": "C116_det2, C116_inv2 (relative errors of 3 and 4/(1-3e) units, exact detection of singularity), C116_det3, C116_inv3, C116_inv4 (backward form: an adjugate and a determinant, each with a bound), C116_accurate3, C116_accurate4 (the inverse of a matrix whose determinant exceeds its rounding error), C116_exact. For sizes 3 and 4 the detection of singular matrices is refuted: C116_regular_refuted (for every precision, a regular matrix for each small enough determinant, whose determinant is computed as zero and whose inverse is refused) and C116_singular_refuted (a singular matrix which is given an inverse). det4x4 does not compile (it casts away const) and is not modelled in floats."
  },
  {
   "property": "C117",
   "status": "partial",
   "theorems": [
    "Geomc.VecInt.C117_conv",
    "Geomc.VecInt.C117_add",
    "Geomc.VecInt.C117_abs",
    "Geomc.VecInt.C117_mul",
    "Geomc.VecInt.C117_div",
    "Geomc.VecInt.C117_cross",
    "Geomc.VecInt.C117_dot",
    "Geomc.VecInt.C117_dot_total",
    "Geomc.VecInt.C117_dot_small",
    "Geomc.VecInt.C117_dot_refuted",
    "Geomc.VecInt.C117_mag2_refuted",
    "Geomc.VecInt.C117_round",
    "Geomc.VecInt.C117_round_narrow",
    "Geomc.VecInt.C117_round_refuted",
    "Geomc.VecInt.C117_mag",
    "Geomc.VecInt.C117_unit",
    "Geomc.VecInt.C117_unit_refuted",
    "Geomc.VecInt.C117_mag_refuted",
    "Geomc.VecInt.C117_project",
    "Geomc.VecInt.C117_mag_nan_refuted",
    "Geomc.VecInt.C117_cast",
    "Geomc.VecInt.C117_castF"
   ],
   "note": "C117_conv, C117_add (sums, differences, negations), C117_abs, C117_mul, C117_div, C117_dot, C117_dot_total, C117_dot_small, C117_cross, C117_project, C117_mag, C117_unit, C117_round, C117_round_narrow, C117_cast, C117_castF. Refuted: dot products (and element-wise products) of uint16_t vectors are undefined once a product reaches 2^31, since the operands are promoted to int (C117_dot_refuted, C117_mul); a nonzero vector of a wrapping type can have squared length 0, and projecting on it returns the axis itself (C117_mag2_refuted); floor, ceil and round convert through double, so that odd 64-bit elements above 2^53 are changed and the top 511 values are undefined (C117_round_refuted); the length of a vector of 64-bit integers can be rounded up (C117_mag_refuted); where the squared length wraps to a negative number the length is undefined (C117_mag_nan_refuted); unit() is the zero vector whenever every element is shorter than the length by one, as for (3,4) (C117_unit_refuted). abs() of a vector of unsigned int or wider does not compile."
  },
  {
   "property": "C118",
   "status": "partial",
   "theorems": [
    "Geomc.RectInt.C118_dimensions",
    "Geomc.RectInt.C118_volume",
    "Geomc.RectInt.C118_empty_refuted",
    "Geomc.RectInt.C118_one",
    "Geomc.RectInt.C118_center_signed",
    "Geomc.RectInt.C118_center_refuted",
    "Geomc.RectInt.C118_center_one",
    "Geomc.RectInt.C118_translate",
    "Geomc.RectInt.C118_wrap_refuted",
    "Geomc.RectInt.C118_from_corner",
    "Geomc.RectInt.C118_project",
    "Geomc.RectInt.C118_project_refuted",
    "Geomc.RectInt.C118_dist2"
   ],
   "note": "C118_dimensions, C118_volume, C118_one (sizes of one-dimensional boxes agree with the others), C118_center_signed, C118_center_one, C118_translate, C118_from_corner, C118_project, C118_dist2. Refuted: C118_empty_refuted (the volume of the default, empty box is undefined for signed types from int on and 2^n for all others; the volume of Rect::full is undefined or zero), C118_center_refuted (the centre of an unsigned box is outside it exactly if the sum of corners wraps along an axis not starting at zero), C118_wrap_refuted (moved or dilated unsigned boxes become empty), C118_project_refuted (narrow signed types choose the farther corner), C118_from_corner (a signed box reaching the greatest value is undefined). Operations that only compare are exact: C45, C46."
  },
  {
   "property": "C119",
   "status": "partial",
   "theorems": [
    "Geomc.GridInt.C119_enumerates",
    "Geomc.GridInt.C119_stuck_refuted",
    "Geomc.GridInt.C119_overflow_refuted",
    "Geomc.GridInt.C119_end_refuted",
    "Geomc.GridInt.C119_distance",
    "Geomc.GridInt.C119_one",
    "Geomc.GridInt.C119_decrement_one",
    "Geomc.GridInt.C119_distance_one"
   ],
   "note": "C119_enumerates, C119_one, C119_decrement_one, C119_distance, C119_distance_one. Refuted: C119_stuck_refuted (if the fastest axis reaches the greatest value of a wrapping type the iterator stays in the first row forever), C119_overflow_refuted (for int and wider signed types this is undefined at the end of the first row), C119_end_refuted (if the slowest axis reaches the greatest value, end() is undefined, or is begin() when the axis covers all values, as for all pairs of bytes), second part of C119_distance (differences of unsigned iterators are too large as soon as a coordinate decreases), C119_distance_one (for unsigned int, negative differences become positive). index_t is unbounded in the N-dimensional distance; the sizes of the region are exact there. begin() of the one-dimensional class compiles only for the default axis order."
  },
  {
   "property": "C120",
   "status": "partial",
   "theorems": [
    "Geomc.Tree.C120_reads",
    "Geomc.Tree.C120_insert_item_refuted",
    "Geomc.Tree.C120_successor",
    "Geomc.Tree.C120_insert_child_refuted",
    "Geomc.Tree.C120_single_refuted",
    "Geomc.Tree.C120_insert_child"
   ],
   "note": "C120_reads; C120_insert_child: a node that has children can be given more. C120_insert_item_refuted: to insert an item is undefined in every leaf of every moved tree, because the parent of the root is the end of the list moved from. C120_successor, C120_insert_child_refuted, C120_single_refuted: to insert the first child of a node is undefined exactly if its place is the end of the nodes, so always in a tree of one node. Only the first operation after the move is modelled."
  },
  {
   "property": "C121",
   "status": "partial",
   "theorems": [
    "Geomc.Flt.C121_center",
    "Geomc.Flt.C121_dimensions",
    "Geomc.Flt.C121_volume",
    "Geomc.Flt.C121_from_center",
    "Geomc.Flt.C121_translate",
    "Geomc.Flt.C121_dilated",
    "Geomc.Flt.C121_minkowski",
    "Geomc.Flt.C121_dist2",
    "Geomc.Flt.C121_unmap",
    "Geomc.Flt.C121_unmap_flat",
    "Geomc.Flt.C121_remap",
    "Geomc.Flt.C121_remap_refuted",
    "Geomc.Flt.C121_size_refuted",
    "Geomc.Flt.C121_fitted_refuted",
    "Geomc.Flt.C121_ray",
    "Geomc.Flt.C121_ray_inside",
    "Geomc.Flt.C121_ray_refuted",
    "Geomc.Flt.C121_corners",
    "Geomc.Flt.C121_from_center_corners",
    "Geomc.Flt.C121_set_dimensions",
    "Geomc.Flt.C121_fitted"
   ],
   "note": "C121_center, C121_dimensions, C121_volume, C121_from_center, C121_from_center_corners, C121_translate, C121_dilated, C121_minkowski, C121_corners, C121_set_dimensions, C121_fitted, C121_dist2, C121_unmap, C121_unmap_flat, C121_remap, C121_ray, C121_ray_inside. C121_remap_refuted: in every precision remap leaves a box of one point. C121_size_refuted: boxes of positive size made about a centre, or given positive sizes, can be points. C121_fitted_refuted: the interval [0,41] in float, [0,49] in double, fitted to [0,1] does not contain zero. C121_ray_refuted: in every precision a ray through the interior of a rectangle is reported to miss it."
  },
  {
   "property": "C122",
   "status": "proved",
   "theorems": [
    "Geomc.Flt.C122_success",
    "Geomc.Flt.C122_roots",
    "Geomc.Flt.C122_double",
    "Geomc.Flt.C122_linear"
   ],
   "note": "C122_success: no root is lost or invented, for p >= 2. C122_roots: relative error at most 6 * 2^-p of each root, for p >= 5. C122_double: equal roots give equal results, rounded once. C122_linear: a linear equation gives its root rounded once."
  },
  {
   "property": "C123",
   "status": "partial",
   "theorems": [
    "Geomc.Flt.C123_hit",
    "Geomc.Flt.C123_ends",
    "Geomc.Flt.C123_hit_refuted",
    "Geomc.Flt.C123_miss_refuted",
    "Geomc.Flt.C123_surface",
    "Geomc.Flt.C123_distance",
    "Geomc.Flt.C123_chord",
    "Geomc.Flt.C123_interval"
   ],
   "note": "C123_hit: outside of a band about the radius, of relative width (1+2^-p)^(2n+3)-1 of twice the squared distance of the centre and the squared radius, rays are judged right. C123_ends: the ends are in order and within six roundings of the roots for the computed coefficients. C123_hit_refuted: in every precision and dimension some ray exactly towards the centre of a sphere is reported to miss it. C123_miss_refuted: some ray at twice the radius is reported to meet it. C123_surface: the points at the reported ends are on the sphere up to (1+2^-p)^(n+16)-1 of twice the squared distances of point and centre from the origin of the ray and the squared radius, however close to a tangent; C123_distance: so in distance, over the radius. C123_chord: each end is near an end of the exact chord, up to that error over the chord; C123_interval: the lower end near where the ray enters and the upper near where it leaves, unless the chord is shorter than the errors."
  },
  {
   "property": "C124",
   "status": "partial",
   "theorems": [
    "Geomc.Flt.C124_mix",
    "Geomc.Flt.C124_linear",
    "Geomc.Flt.C124_corners",
    "Geomc.Flt.C124_vec_mix",
    "Geomc.Flt.C124_vec_mix_ends",
    "Geomc.Flt.C124_cubic",
    "Geomc.Flt.C124_cubic_start",
    "Geomc.Flt.C124_cubic_end_refuted",
    "Geomc.Flt.C124_range_refuted"
   ],
   "note": "C124_mix, C124_linear, C124_cubic, C124_vec_mix: error bounds in terms of the sizes of the samples, in every dimension. C124_corners: interp_linear is exact at all corners, C124_vec_mix_ends at both ends, C124_cubic_start: interp_cubic at parameter zero. C124_cubic_end_refuted: at parameter one it may return half of the sample. C124_range_refuted: in every format with four bits or more some mix(t, a, a) with t between zero and one is not a."
  },
  {
   "property": "C125",
   "status": "partial",
   "theorems": [
    "Geomc.Flt.C125_small",
    "Geomc.Flt.C125_multiple",
    "Geomc.Flt.C125_congruent",
    "Geomc.Flt.C125_upper_refuted",
    "Geomc.Flt.C125_negative_refuted",
    "Geomc.Flt.C125_angle",
    "Geomc.Flt.C125_angle_refuted"
   ],
   "note": "C125_small: numbers in range are returned unchanged. C125_multiple, C125_congruent: right up to two roundings and out of range by at most one rounding of the number. C125_upper_refuted: for every modulus small negative numbers have the modulus as remainder. C125_negative_refuted: in every format with six bits or more some positive number has a negative remainder. C125_angle: for angles of one turn the shortest turn up to two roundings. C125_angle_refuted: some negative angle is taken for none."
  },
  {
   "property": "C126",
   "status": "partial",
   "theorems": [
    "Geomc.Flt.C126_cylinder_error",
    "Geomc.Flt.C126_sphere",
    "Geomc.Flt.C126_sphere_sign",
    "Geomc.Flt.C126_sphere_project",
    "Geomc.Flt.C126_capsule",
    "Geomc.Flt.C126_cylinder_refuted",
    "Geomc.Flt.C126_cylinder_partial"
   ],
   "note": "C126_sphere, C126_sphere_sign, C126_sphere_project: spheres, with relative error bounds in the number of roundings. C126_capsule: capsules, including points beyond the ends and on the axis. C126_cylinder_refuted: in every format of eleven bits or more and every dimension some point on the axis of a cylinder, between the caps and contained in it, has a distance that is not a number. C126_cylinder_partial, C126_cylinder_error: away from the axis the distance to a cylinder is defined, and within a few units in the last place of B\u00b2/H + A + |R| for the distances B to the base and H to the axis, the length A and the radius R."
  },
  {
   "property": "C127",
   "status": "partial",
   "theorems": [
    "Geomc.Flt.C127_project",
    "Geomc.Flt.C127_size",
    "Geomc.Flt.C127_triangular",
    "Geomc.Flt.C127_pair",
    "Geomc.Flt.C127_unit",
    "Geomc.Flt.C127_parallel_refuted"
   ],
   "note": "C127_project, C127_size: one projection and one step are right up to a few units in the last place of the length of the vector. C127_triangular: for any number of vectors the inputs are a triangular combination of the outputs up to rounding, outputs do not grow, and each is orthogonal to the one before it relative to the length of the input. C127_pair: two vectors. C127_unit: unit lengths, and failure exactly if a vector vanishes. C127_parallel_refuted: in every format with six bits or more and every dimension from three, the vectors made of two linearly independent ones can be as nearly parallel as one likes."
  },
  {
   "property": "C128",
   "status": "partial",
   "theorems": [
    "Geomc.Flt.C128_point",
    "Geomc.Flt.C128_distance",
    "Geomc.Flt.C128_project",
    "Geomc.Flt.C128_origin",
    "Geomc.Flt.C128_segment",
    "Geomc.Flt.C128_triangle",
    "Geomc.Flt.C128_project_refuted",
    "Geomc.Flt.C128_triangle_refuted"
   ],
   "note": "C128_point: the given point is on the plane exactly (distance zero, contained, its own projection), and only the zero vector has no plane. C128_distance, C128_project, C128_origin: within a few units in the last place of the exact plane's, relative to the distances of the points from the origin. C128_segment, C128_triangle: the first corner is on the plane exactly, the others up to rounding, however narrow the triangle (edges representable). C128_project_refuted: in float and double a projected point is not on the plane. C128_triangle_refuted: in float and double two corners of a triangle are both outside the half-space of its own plane."
  },
  {
   "property": "C129",
   "status": "partial",
   "theorems": [
    "Geomc.Flt.C129_near",
    "Geomc.Flt.C129_inside",
    "Geomc.Flt.C129_corner_refuted",
    "Geomc.Flt.C129_edge_refuted"
   ],
   "note": "C129_near: a point said to be in is within 7 b m of the simplex in every coordinate, however thin the simplex (m bounds the coordinates and is at least one; b is the backward error of the solver, for a triangle 54 units in the last place times m). C129_inside: if the box of half side 32 b m around a point is within the simplex, the point is said to be in, and no number is divided by zero. C129_corner_refuted: in float and double a triangle does not contain one of its own vertices. C129_edge_refuted: in float and double a point exactly on an edge shared by two triangles is in neither."
  },
  {
   "property": "C130",
   "status": "partial",
   "theorems": [
    "Geomc.Flt.C130_exact",
    "Geomc.Flt.C130_apart",
    "Geomc.Flt.C130_overlap",
    "Geomc.Flt.C130_support",
    "Geomc.Flt.C130_answer",
    "Geomc.Flt.C130_simplex",
    "Geomc.Flt.C130_miss_refuted",
    "Geomc.Flt.C130_hit_refuted",
    "Geomc.Flt.C130_limit_refuted"
   ],
   "note": "C130_apart: a report of being apart gives a direction along which the shapes overlap by at most 2\u03b4 + 2((1+2^-p)^(N+1) - 1) m per unit of its 1-norm, for any projection onto faces (\u03b4 the error of the supports, m bounds their coordinates). C130_overlap: shapes that overlap by more are never reported to be apart. C130_support: the support of a simplex is the first of its vertices with the largest computed product and is right up to rounding. C130_simplex: both for simplexes with any number of vertices, where there is always an answer. C130_answer: the loop always gives an answer within its limit. C130_exact: without rounding the model is that of C57 and C79. C130_miss_refuted: in float and double a point strictly inside a triangle is reported to be apart from it. C130_hit_refuted: a point outside a triangle is reported to overlap it. C130_limit_refuted: the limit of the iterations is reached in two dimensions, which the source says never happens, and a point outside is reported to overlap. Missing: a bound on how far apart shapes reported to overlap can be."
  },
  {
   "property": "C131",
   "status": "partial",
   "theorems": [
    "Geomc.Flt.C131_apart",
    "Geomc.Flt.C131_overlap",
    "Geomc.Flt.C131_meet3",
    "Geomc.Flt.C131_meet2",
    "Geomc.Flt.C131_exact",
    "Geomc.Flt.C131_miss_refuted",
    "Geomc.Flt.C131_hit_refuted"
   ],
   "note": "C131_apart: a report of being apart gives a direction along which the boxes overlap by at most 2((1+2^-p)^(2n+2) - 1) m per unit of its 1-norm, where m bounds the coordinates and the sums that give the corners. C131_overlap: so boxes are reported to overlap if a point of one is inside the other, by more than that. C131_meet3: boxes in three dimensions reported to overlap meet once one is widened by 2((1+2^-p)^8 - 1) m on every side. C131_meet2: in two dimensions the same with 2((1+2^-p)^6 - 1) m and twice the error of the held inverse. C131_exact: without rounding the model is that of C58. C131_miss_refuted: squares with a region in common are reported to be apart. C131_hit_refuted: boxes with a gap are reported to overlap."
  },
  {
   "property": "C132",
   "status": "partial",
   "theorems": [
    "Geomc.Flt.C132_defined",
    "Geomc.Flt.C132_element",
    "Geomc.Flt.C132_vector",
    "Geomc.Flt.C132_aligns",
    "Geomc.Flt.C132_vector_aligns",
    "Geomc.Flt.C132_orthonormal",
    "Geomc.Flt.C132_proper",
    "Geomc.Flt.C132_opposite_refuted",
    "Geomc.Flt.C132_opposite_witness_refuted",
    "Geomc.Flt.C132_close_refuted",
    "Geomc.Flt.C132_vector_opposite_refuted",
    "Geomc.Flt.C132_exact",
    "Geomc.Flt.C132_vector_exact"
   ],
   "note": "Proved: C132_defined, always; C132_element, C132_aligns, C132_orthonormal and C132_proper for directions with 1 + cos at least 64 * 2^-p and a computed inner product other than 1, with errors of at most (64 + 48 / (1 + cos)) 2^-p for an element; C132_vector and C132_vector_aligns, the method align of a vector, which has no such exception. C132_vector_exact and C132_exact: without rounding the models are those of C39 and C43. Refuted: C132_opposite_refuted, for a direction and its opposite the result is a reflection through the origin, scaled, whenever the inner product is not computed as exactly -1; C132_opposite_witness_refuted, which happens for unit vectors in float and in double. C132_close_refuted: directions sqrt(2 * 2^-p) apart (0.0003 in float) are aligned by the identity. C132_vector_opposite_refuted: align of opposite directions reflects too, or divides by zero."
  },
  {
   "property": "C133",
   "status": "partial",
   "theorems": [
    "Geomc.Flt.C133_axis_element",
    "Geomc.Flt.C133_axis",
    "Geomc.Flt.C133_axis_moves",
    "Geomc.Flt.C133_both_element",
    "Geomc.Flt.C133_one_element",
    "Geomc.Flt.C133_about_one",
    "Geomc.Flt.C133_one_exact",
    "Geomc.Flt.C133_about",
    "Geomc.Flt.C133_undo",
    "Geomc.Flt.C133_exact",
    "Geomc.Flt.C133_affine",
    "Geomc.Flt.C133_centre_refuted",
    "Geomc.Flt.C133_quat_element",
    "Geomc.Flt.C133_quat"
   ],
   "note": "Proved: C133_axis_element, C133_quat_element, C133_both_element for any input. C133_axis: orthonormal by rows and columns up to 220 units 2^-p; C133_quat: up to 72. C133_axis_moves: the axis is kept up to 44 units, and points go where the rotation by the angle takes them up to 13 units and three times the error of the sine and cosine. C133_about: rotations about a point keep it up to 47 units of the sum of its coordinates, and so does the inverse; C133_undo: the two undo each other in either order. C133_affine: the last row and column. C133_exact: without rounding the model is that of C17. Refuted: C133_centre_refuted, a coordinate of the centre is not kept relative to itself: about (1023, 3, 0) the 3 moves by more than a hundred units in its last place. C133_one_element, C133_about_one and C133_one_exact: the same for the variant without an inverse, whose translation is made of fused products (56 units)."
  },
  {
   "property": "C134",
   "status": "partial",
   "theorems": [
    "Geomc.Flt.C134_legendre",
    "Geomc.Flt.C134_chebyshev_first",
    "Geomc.Flt.C134_chebyshev_second",
    "Geomc.Flt.C134_legendre_integral",
    "Geomc.Flt.C134_ends",
    "Geomc.Flt.C134_reflected",
    "Geomc.Flt.C134_exact",
    "Geomc.Flt.C134_degree",
    "Geomc.Flt.C134_range_refuted",
    "Geomc.Flt.C134_relative_refuted"
   ],
   "note": "Proved: C134_legendre (13 n^2 units 2^-p), C134_chebyshev_first (7 n^2 units) and C134_chebyshev_second (7 n^2 (n+1) units) against the polynomials themselves, C134_legendre_integral (13 n + 8 units), C134_ends (exact at -1 and 1), C134_reflected (odd and even to the last bit), C134_degree (one for degrees of zero or less), C134_exact (without rounding the model is that of C64). Refuted: C134_range_refuted, a computed value can exceed one; C134_relative_refuted, next to a root it can be zero though the exact value is not, so no relative bound holds."
  },
  {
   "property": "C135",
   "status": "partial",
   "theorems": [
    "Geomc.Flt.C135_noise",
    "Geomc.Flt.C135_cell",
    "Geomc.Flt.C135_corners",
    "Geomc.Flt.C135_grid",
    "Geomc.Flt.C135_gradient",
    "Geomc.Flt.C135_exact",
    "Geomc.Flt.C135_between",
    "Geomc.Flt.C135_between_refuted"
   ],
   "note": "Proved: C135_noise (index 758 N + 2 relative to a bound of the sums of the sizes of the gradient coordinates), C135_gradient (the same index relative to 19/4 of that bound for every coordinate, and the value equal to the noise to the last bit), C135_cell (the position within a cell is between 0 and 1, both included), C135_corners and C135_grid (exactly zero at grid points and wherever the computed position is at an end along every axis), C135_between (the exact noise lies between the linear functions of the corners), C135_exact (without rounding the model is that of C65). Refuted: C135_between_refuted, in single precision the noise can be negative where all four corners are nonnegative, because the computed weight exceeds one."
  },
  {
   "property": "C136",
   "status": "partial",
   "theorems": [
    "Geomc.Flt.C136_element",
    "Geomc.Flt.C136_assign",
    "Geomc.Flt.C136_assign_scalar",
    "Geomc.Flt.C136_scale",
    "Geomc.Flt.C136_scale_refuted",
    "Geomc.Flt.C136_scale_whole",
    "Geomc.Flt.C136_fraction_refuted",
    "Geomc.Flt.C136_divide_whole",
    "Geomc.Flt.C136_dot_coordinates",
    "Geomc.Flt.C136_perpendicular",
    "Geomc.Flt.C136_dot_refuted",
    "Geomc.Flt.C136_dot_exact"
   ],
   "note": "Proved: C136_element (indices and elements), C136_assign and C136_assign_scalar (compound assignments with the same or a separate vector and with a scalar that may be one of the elements; nothing else changes), C136_scale (a scalar exact in the element type, scalar type twice as precise: equal to the last bit), C136_scale_whole and C136_divide_whole (whole elements and whole scalars: equal, and undefined for the same operands), C136_dot_coordinates (the dot product with separate coordinates within 2, 3 and 4 roundings), C136_perpendicular (it is exactly zero for perpendicular vectors), C136_dot_exact (without rounding both are the same). Refuted: C136_scale_refuted (v * 0.1 and v *= 0.1 differ for floats), C136_fraction_refuted (for whole elements v *= d is the zero vector and v /= d divides by zero for every |d| < 1, while v * d and v / d are computed as documented), C136_dot_refuted (a.dot(b) is not zero for perpendicular vectors for which a.dot(x, y) is)."
  },
  {
   "property": "C137",
   "status": "partial",
   "theorems": [
    "Geomc.Flt.C137_between",
    "Geomc.Flt.C137_knot",
    "Geomc.Flt.C137_after",
    "Geomc.Flt.C137_before",
    "Geomc.Flt.C137_defined",
    "Geomc.Flt.C137_exact",
    "Geomc.Flt.C137_still_refuted"
   ],
   "note": "Proved: C137_between (760 rounding errors, relative to the larger of |position| + |velocity| of the two knots, in each coordinate), C137_knot (exact at every knot), C137_after (4 rounding errors), C137_before (2), C137_defined (defined for the same parameters), C137_exact (without rounding the model is that of C66). Refuted: C137_still_refuted, between two equal knots without velocity the computed point can be another one."
  },
  {
   "property": "C138",
   "status": "partial",
   "theorems": [
    "Geomc.Flt.C138_project",
    "Geomc.Flt.C138_project_origin",
    "Geomc.Flt.C138_fraction",
    "Geomc.Flt.C138_fraction_self",
    "Geomc.Flt.C138_with_length",
    "Geomc.Flt.C138_at_distance",
    "Geomc.Flt.C138_exact",
    "Geomc.Flt.C138_on_line_refuted"
   ],
   "note": "Proved: C138_project, C138_project_origin, C138_fraction, C138_fraction_self, C138_with_length, C138_at_distance, C138_exact (without rounding the model is the exact one). Refuted: C138_on_line_refuted, a point on the line of a ray need not be its own computed nearest point."
  },
  {
   "property": "C139",
   "status": "proved",
   "theorems": [
    "Geomc.Flt.C139_value",
    "Geomc.Flt.C139_derivative",
    "Geomc.Flt.C139_constant",
    "Geomc.Flt.C139_product",
    "Geomc.Flt.C139_quotient",
    "Geomc.Flt.C139_reciprocal",
    "Geomc.Flt.C139_exact"
   ],
   "note": "C139_value (values of duals are those of floats), C139_derivative (against the derivative of the polynomial), C139_constant, C139_product (3 rounding errors, relative), C139_quotient (5), C139_reciprocal (3), C139_exact (without rounding the operators are those of C61)."
  },
  {
   "property": "C140",
   "status": "partial",
   "theorems": [
    "Geomc.Flt.C140_linear",
    "Geomc.Flt.C140_at_sample",
    "Geomc.Flt.C140_nearest",
    "Geomc.Flt.C140_nearest_refuted",
    "Geomc.Flt.C140_grid",
    "Geomc.Flt.C140_sample",
    "Geomc.Flt.C140_sample_nearest",
    "Geomc.Flt.C140_exact"
   ],
   "note": "Proved: C140_linear, C140_at_sample (exact at grid points), C140_grid, C140_sample (both together), C140_nearest, C140_sample_nearest (in the coordinates of the domain), C140_exact (without rounding the model is that of C69). Refuted: C140_nearest_refuted, the largest float below 1/2 takes the sample at 1 instead of the one at 0, where ties are rounded to even."
  },
  {
   "property": "C141",
   "status": "proved",
   "theorems": [
    "Geomc.Flt.C141_dilated",
    "Geomc.Flt.C141_ball",
    "Geomc.Flt.C141_capsule",
    "Geomc.Flt.C141_box",
    "Geomc.Flt.C141_extruded",
    "Geomc.Flt.C141_simplex",
    "Geomc.Flt.C141_overlap",
    "Geomc.Flt.C141_exact"
   ],
   "note": "C141_ball, C141_dilated, C141_capsule, C141_box, C141_extruded, C141_simplex: the error of each support point and a bound on its coordinates. C141_overlap: the overlap test for any two shapes with such bounds. C141_exact: without rounding the model is that of C50, C51 and C53. Spheres and dilated shapes are not among those of C141_overlap, since their support points are undefined for the zero direction."
  },
  {
   "property": "C142",
   "status": "partial",
   "theorems": [
    "Geomc.Flt.C142_total",
    "Geomc.Flt.C142_ball",
    "Geomc.Flt.C142_dilated",
    "Geomc.Flt.C142_extruded",
    "Geomc.Flt.C142_frustum",
    "Geomc.Flt.C142_overlap",
    "Geomc.Flt.C142_touch",
    "Geomc.Flt.C142_spheres_refuted",
    "Geomc.Flt.C142_exact"
   ],
   "note": "C142_ball, C142_dilated, C142_extruded, C142_frustum, C142_total: the errors of the support points. C142_overlap: the overlap test for any two such shapes, if the first two support points differ or both shapes have a point for the zero direction. C142_exact: without rounding the support points are those of C53. Refuted: C142_touch and C142_spheres_refuted, two spheres that touch on the first axis make the test divide zero by zero, whatever their radius: the first search direction is not tested for zero, as later ones are."
  },
  {
   "property": "C143",
   "status": "partial",
   "theorems": [
    "Geomc.Flt.C143_support",
    "Geomc.Flt.C143_exact",
    "Geomc.Flt.C143_axis_refuted"
   ],
   "note": "C143_support: the error of the support point, for directions not near the axis. C143_exact: without rounding the model is that of C52. Refuted: C143_axis_refuted, for every precision of at least 6 bits, rounding and radius there are a cylinder on the first axis and a direction along it for which the point is off by the radius along the axis, beyond the end or back from it; in double, a cylinder of length 397/7 has the point beyond its end by the radius."
  },
  {
   "property": "C144",
   "status": "proved",
   "theorems": [
    "Geomc.Flt.C144_support",
    "Geomc.Flt.C144_bounds",
    "Geomc.Flt.C144_exact",
    "Geomc.Flt.C144_boxes"
   ],
   "note": "C144_support, C144_bounds: the errors of the support points and of the bounds. C144_boxes: the overlap test of oriented rectangles. C144_exact: without rounding the model is that of C54."
  },
  {
   "property": "C145",
   "status": "partial",
   "theorems": [
    "Geomc.Flt.C145_same",
    "Geomc.Flt.C145_bounds",
    "Geomc.Flt.C145_bounds_error",
    "Geomc.Flt.C145_empty_refuted",
    "Geomc.Flt.C145_bounds_refuted",
    "Geomc.Flt.C145_contains",
    "Geomc.Flt.C145_contains_refuted",
    "Geomc.Flt.C145_exact"
   ],
   "note": "Refuted: C145_contains_refuted, a corner of a box moved exactly into the world is reported to be outside in float and in double; C145_empty_refuted, the bounds of a placed box are never empty, even if the box is; C145_bounds_refuted, from 31 dimensions on the number of corners overflows. Proved: C145_bounds, C145_same, C145_bounds_error, C145_contains for all boxes that are not empty; C145_exact: without rounding the model is that of C54."
  },
  {
   "property": "C146",
   "status": "partial",
   "theorems": [
    "Geomc.Flt.C146_contains",
    "Geomc.Flt.C146_box",
    "Geomc.Flt.C146_box_refuted",
    "Geomc.Flt.C146_bounds",
    "Geomc.Flt.C146_exact"
   ],
   "note": "Refuted: C146_box_refuted, in float and in double a point outside of a frustum is reported to be in it. Proved: C146_contains, C146_box (every point of the frustum is reported, and the error of the others), C146_bounds. C146_exact: without rounding the model is that of C53."
  },
  {
   "property": "C147",
   "status": "proved",
   "theorems": [
    "Geomc.Flt.C147_extruded",
    "Geomc.Flt.C147_extruded_sign",
    "Geomc.Flt.C147_dilated",
    "Geomc.Flt.C147_exact",
    "Geomc.Flt.C147_disk"
   ],
   "note": "C147_extruded, C147_extruded_sign, C147_dilated: the errors and the signs. C147_disk: an extruded sphere. C147_exact: without rounding the model is that of C53, in which Dilated::contains leaves out the surface."
  },
  {
   "property": "C148",
   "status": "partial",
   "theorems": [
    "Geomc.Flt.C148_mul",
    "Geomc.Flt.C148_div",
    "Geomc.Flt.C148_scale",
    "Geomc.Flt.C148_translation",
    "Geomc.Flt.C148_round_trip",
    "Geomc.Flt.C148_round_trip_refuted",
    "Geomc.Flt.C148_exact",
    "Geomc.Flt.C148_scale_exact"
   ],
   "note": "Refuted: C148_round_trip_refuted, a point scaled and scaled back is not always where it was, in float or double. Proved: C148_mul, C148_div, C148_round_trip: the errors; C148_scale, C148_translation: the inverses kept with scalings and shifts. C148_exact: without rounding the model is that of the exact transforms."
  },
  {
   "property": "C149",
   "status": "partial",
   "theorems": [
    "Geomc.Flt.C149_ray",
    "Geomc.Flt.C149_exact",
    "Geomc.Flt.C149_ray_refuted"
   ],
   "note": "Refuted: C149_ray_refuted, the point of the moved ray and the moved point of the ray are not the same numbers, in float or double. Proved: C149_ray: the errors. C149_exact: without rounding the model is that of the exact transforms."
  },
  {
   "property": "C150",
   "status": "proved",
   "theorems": [
    "Geomc.Flt.C150_project",
    "Geomc.Flt.C150_exact",
    "Geomc.Flt.C150_surface"
   ],
   "note": "C150_project: one of three and the nearest of them up to rounding. C150_surface: on the surface, and the nearest point of it up to rounding. C150_exact: without rounding the model is that of C53."
  },
  {
   "property": "C151",
   "status": "proved",
   "theorems": [
    "Geomc.Flt.C151_normal",
    "Geomc.Flt.C151_project",
    "Geomc.Flt.C151_exact"
   ],
   "note": "C151_normal: factors of the coordinates. C151_project: the projection to a dilated shape. C151_exact: without rounding the models are those of the exact shapes. For points on a line (one dimension) the code takes the sign in place of the quotient, which is not modelled here."
  }
 ]
}