{"id": "C01", "title": "positive_mod is the mathematical modulus", "statement": "For integers a and b>0, positive_mod(a,b) lies in [0,b) and differs from a by a multiple of b; for b=0 the call is undefined, and for real arguments with b>0 the same holds with a real result in [0,b).", "quantifier": "every integer a (of either sign) and every positive b; every real a and positive real b", "why_tests_cant": "sign and wrap behaviour has to hold for all residues and signs, not sampled ones", "anchors": ["geomc/function/Utils.h: positive_mod"]}
{"id": "C02", "title": "ceil_div and floor_div round as documented", "statement": "ceil_div(a,b) returns the ceiling of a/b and floor_div(a,b) the floor of a/b, and snap(a,b) is the smallest multiple of b not below a.", "quantifier": "every integer a and nonzero b", "why_tests_cant": "the integer tricks are right only on part of the domain; deciding which part needs all a and b", "anchors": ["geomc/function/Utils.h: ceil_div, floor_div, snap"]}
{"id": "C03", "title": "clamp and is_power_of_two", "statement": "clamp(v,lo,hi) with lo<=hi lies in [lo,hi], is v when v is already there, and is the point of [lo,hi] closest to v; is_power_of_two(x) is true exactly when x = 2^k for some k.", "quantifier": "every totally ordered value triple; every non-negative machine integer", "why_tests_cant": "exact characterisation over the full domain", "anchors": ["geomc/function/Utils.h: clamp, is_power_of_two"]}
{"id": "C04", "title": "N-dimensional linear interpolation", "statement": "interp_linear over dim axes returns p[corner] at the corner of the unit cube, never leaves the range of the sample values for parameters in [0,1], and reproduces every multi-affine function exactly; the corner with bit i set is the one at coordinate 1 on axis i.", "quantifier": "every dimension, every sample table and every parameter", "why_tests_cant": "recursion over an unbounded number of dimensions", "anchors": ["geomc/function/Utils.h: mix, interp_linear"]}
{"id": "C05", "title": "N-dimensional cubic interpolation", "statement": "interp_cubic returns the stored sample at the grid points, reproduces every polynomial of degree at most two exactly in one dimension, and joins with a continuous first derivative between neighbouring cells.", "quantifier": "every parameter, every sample sequence and every dimension", "why_tests_cant": "continuous parameter space and unbounded dimension", "anchors": ["geomc/function/Utils.h: interp_cubic"]}
{"id": "C06", "title": "quadratic_solve returns exactly the real roots", "statement": "When quadratic_solve reports true, x is a real root of ax^2+bx+c iff x is one of the two results (when a or the intermediate is zero the two results coincide with the one root); when it reports false there is no root or the coefficients a,b are both zero, and the results are unaltered.", "quantifier": "all real coefficient triples", "why_tests_cant": "degenerate cases a=0, b=0, c=0 interact; needs all reals", "anchors": ["geomc/function/Utils.h: quadratic_solve"]}
{"id": "C07", "title": "angle_to is the shortest signed rotation", "statement": "angle_to(a,b) is congruent to b-a modulo a full turn and lies in [-pi,pi], and no congruent angle has smaller magnitude.", "quantifier": "all real angles", "why_tests_cant": "real-valued domain and wrap boundaries", "anchors": ["geomc/function/Utils.h: angle_to"]}
{"id": "C08", "title": "Deque is a double ended queue over every history", "statement": "Starting from an empty deque, after any sequence of push_back, push_front, pop_back, pop_front, clear and reserve, the visible contents (size, indexing incl. wrap-around, front, back, popped values) equal those of an ideal double ended list; only live slots inside the buffer are read or destroyed, and only dead ones are constructed.", "quantifier": "every static capacity, every element type, every operation history", "why_tests_cant": "histories and wrap-around/growth points are unbounded", "anchors": ["geomc/Deque.h: push_back, push_front, pop_back, pop_front, clear, reserve, operator[], front, back"]}
{"id": "C09", "title": "Deque copies, moves and compares faithfully", "statement": "Copy construction and copy assignment give an equal deque with storage of its own that can be used up to its reported capacity, leaving the source unchanged; moving transfers the contents and leaves the source empty and usable; == holds iff contents are equal in order.", "quantifier": "every reachable source and destination deque", "why_tests_cant": "depends on the growth and shrink history of the source", "anchors": ["geomc/Deque.h: Deque(const Deque&), Deque(Deque&&), operator=, operator=="]}
{"id": "C10", "title": "SmallStorage never touches a dead or out-of-range slot", "statement": "Over any history of push_back, pop_back, resize, reserve, clear, copies and moves, every element access refers to a constructed element inside the current buffer, every element is destroyed exactly once, and contents follow an ideal list.", "quantifier": "every static capacity N and every operation history", "why_tests_cant": "lifetimes over arbitrary histories", "anchors": ["geomc/SmallStorage.h: _ensure_capacity, push_back, pop_back, resize, reserve, clear, copy/move ctor and assignment"]}
{"id": "C11", "title": "hash_combine loses no information from either side's argument", "statement": "For a fixed first hash, hash_combine is a bijection of the second, at each supported word width, so combining cannot create collisions between different second hashes.", "quantifier": "every word of 16, 32, 64 and 128 bits", "why_tests_cant": "2^32..2^256 argument pairs", "anchors": ["geomc/Hash.h: hash_combine"]}
{"id": "C12", "title": "Structured hashes respect equality and order of combination", "statement": "hash_many, hash_array and the tuple digest are functions of the sequence of element hashes only, so equal values have equal digests; two sequences that differ only in their last element digest differently.", "quantifier": "every sequence of element hashes, every length", "why_tests_cant": "unbounded length", "anchors": ["geomc/Hash.h: hash_combine_many, hash_array, hash_many, Digest"]}
{"id": "C13", "title": "SipHash is SipHash-2-4 on the full message", "statement": "siphash absorbs the message as consecutive little-endian 64-bit words plus a final word carrying the length byte and the 0..7 trailing bytes, with every byte of the message read exactly once and none beyond it; messages of equal length (and key) are absorbed injectively, and each round is a permutation of the 256-bit state.", "quantifier": "every message length, message and key", "why_tests_cant": "all lengths mod 8 and all 256-bit states", "anchors": ["geomc/function/functiondetail/SipHash.cpp: siphash, sipround, u8to64_le, u64to8_le"]}
{"id": "C14", "title": "Bounded integers are in range and unbiased", "statement": "rand(hi) for unsigned hi>0 always returns a value in [0,hi), and every value is accepted for the same number of generator words; rand(lo,hi) lies in [lo,hi).", "quantifier": "every hi and every 32-bit generator word; every stream", "why_tests_cant": "2^64 (word, bound) combinations", "anchors": ["geomc/random/Random.cpp: Random::rand<unsigned>(hi), rand<int>(lo,hi)"]}
{"id": "C15", "title": "Random floats are in the unit interval", "statement": "rand<float> and rand<double> return a finite value in [0,1] for every sequence of generator words and terminate after boundedly many words; rand<bool> hands out each bit of each generator word exactly once.", "quantifier": "every stream of generator words", "why_tests_cant": "all streams, loop of unbounded length", "anchors": ["geomc/random/Random.cpp: Random::rand<float>, rand<double>, rand<bool>"]}
{"id": "C16", "title": "permute is an exact uniform shuffle", "statement": "permute rearranges the array into a permutation of itself and the map from its sequence of random choices to the resulting order is a bijection onto all n! orders.", "quantifier": "every array length and contents", "why_tests_cant": "n! outcomes for each n", "anchors": ["geomc/random/RandomTools.h: permute"]}
{"id": "C17", "title": "Xoshiro256++ state evolution", "statement": "The state transition is a bijection of the 256-bit state which fixes only the all-zero state's orbit, so a generator whose state is not all zero never becomes all zero; seeding by a single 64-bit seed never yields the all-zero state.", "quantifier": "every 256-bit state and 64-bit seed", "why_tests_cant": "2^256 states", "anchors": ["geomc/random/Xorshiro.h: rand64, rseed, splitmix64"]}
{"id": "C18", "title": "LCRand and MTRand progress safely and deterministically", "statement": "LCRand's state transition is a bijection with full period 2^64; MTRand never reads or writes outside its 624-word table for any number of draws, and re-seeding with the same value reproduces the same stream.", "quantifier": "every seed and every number of draws", "why_tests_cant": "period and index reasoning over unbounded draws", "anchors": ["geomc/random/LCRand.h: rand64", "geomc/random/MTRand.cpp: rand32, rseed, twist"]}
{"id": "C19", "title": "GridIterator visits each cell once in order", "statement": "From begin to end, forward iteration over an inclusive integer region visits each cell of the region exactly once, in the documented axis order, and nothing else; distance between two positions equals the number of increments between them.", "quantifier": "every dimension and every non-empty region", "why_tests_cant": "unbounded dimension and extents", "anchors": ["geomc/shape/GridIterator.h: increment, end, distance_to"]}
{"id": "C20", "title": "GridIterator random access agrees with stepping", "statement": "Decrementing undoes incrementing, and advancing by k equals k increments (or -k decrements).", "quantifier": "every region, position and k", "why_tests_cant": "carry across all axes", "anchors": ["geomc/shape/GridIterator.h: decrement, advance"]}
{"id": "C21", "title": "Flat matrix layouts address every element exactly once", "statement": "For both storage orders the (row,col) to offset map is a bijection onto [0, rows*cols); row and column iterators visit exactly the elements of that row or column in order; iterator distance and advance are inverse.", "quantifier": "every matrix shape and every row/column", "why_tests_cant": "all shapes", "anchors": ["geomc/linalg/mtxdetail/MatrixLayout.h: FlatMatrixLayout::index, row, col, TransposeIterator"]}
{"id": "C22", "title": "Raster addressing stays in bounds and follows the edge rule", "statement": "For every integer grid coordinate, however far outside, clamped, periodic and mirrored lookup read inside the raster; inside the raster all agree with the plain sample; periodic has period extent, mirror is even and has period 2(extent-1), clamp gives the nearest edge sample; distinct in-range coordinates address distinct samples.", "quantifier": "every dimension, extent and integer coordinate", "why_tests_cant": "all integer coordinates", "anchors": ["geomc/function/Raster.h: index, coord, edge policies", "geomc/function/functiondetail/RasterDetail.h: _ImplCoordEdge"]}
{"id": "C23", "title": "Raster domain mapping puts the domain corners on the extreme samples", "statement": "Sampling at the low and high corner of the raster's domain returns the first and last sample.", "quantifier": "every extent and domain", "why_tests_cant": "depends on all extents", "anchors": ["geomc/function/Raster.h: to_gridspace"]}
{"id": "C24", "title": "Spherical harmonic coefficients are indexed bijectively", "statement": "The (l,m) to array index map is a bijection from {0<=l<n, |m|<=l} onto [0,n^2); access never leaves the array; dot, addition and scaling act coefficient by coefficient over the bands both sides have.", "quantifier": "every band count and (l,m)", "why_tests_cant": "all band counts", "anchors": ["geomc/function/SphericalHarmonics.h: coeff, dot, operator+=, operator*="]}
{"id": "C25", "title": "Matrix products equal the mathematical product", "statement": "For every combination of operand kinds (general, diagonal, permutation, vector) mul writes into each destination element exactly the sum over k of a(i,k)b(k,j).", "quantifier": "all shapes, all element values over a commutative ring", "why_tests_cant": "unbounded shapes; symbolic entries", "anchors": ["geomc/linalg/mtxdetail/MatrixMult.h: _ImplMatrixMul variants"]}
{"id": "C26", "title": "transpose and matrix element-wise operations", "statement": "transpose gives t(j,i)=m(i,j), in place or out of place, also when the destination is the source; add, subtract, scale and compare act elementwise.", "quantifier": "all shapes and entries", "why_tests_cant": "unbounded shapes; in-place swap order", "anchors": ["geomc/linalg/Matrix.h: transpose, add, sub, scale, mtxequal"]}
{"id": "C27", "title": "set_identity writes the identity", "statement": "After set_identity, m(i,j) is 1 when i=j and 0 otherwise for every shape and storage order, writing only inside the matrix.", "quantifier": "all shapes and layouts", "why_tests_cant": "all non-square shapes", "anchors": ["geomc/linalg/mtxtypes/SimpleMatrix.h: set_identity"]}
{"id": "C28", "title": "Aliasing detection", "statement": "When the destination of a matrix operation shares any storage with a source the operation still produces the mathematically correct result.", "quantifier": "all assignments of storage tokens to operands", "why_tests_cant": "all sharing patterns", "anchors": ["geomc/linalg/Matrix.h: mtx_aliases_storage, mul, transpose"]}
{"id": "C29", "title": "PermutationMatrix stays a permutation over every history", "statement": "After any sequence of identity, swap_rows, swap_cols, transpose, setRowSources/Destinations and products, the matrix is a permutation matrix whose row-source and row-destination views are mutually inverse and whose element (r,c) is 1 exactly when row r takes from row c.", "quantifier": "every size and operation history", "why_tests_cant": "histories", "anchors": ["geomc/linalg/mtxtypes/PermutationMatrix.h: swap_rows, swap_cols, transpose, setRowSources, get_row_sources"]}
{"id": "C30", "title": "Permutation sign is the mathematical parity", "statement": "sign() of a PermutationMatrix equals the parity of its permutation after any history, and permutation_sign on an index array equals the parity of that array.", "quantifier": "every size, permutation and history", "why_tests_cant": "n! permutations", "anchors": ["geomc/linalg/mtxtypes/PermutationMatrix.h: sign, _compute_sign, permutation_sign"]}
{"id": "C31", "title": "PLU decomposition reconstructs the matrix", "statement": "When the PLU decomposition reports no degeneracy, the product of the unit lower triangular factor and the upper triangular factor equals the row-permuted input, and the returned permutation is a permutation with the reported parity.", "quantifier": "every size and every input over an ordered field", "why_tests_cant": "symbolic entries, all sizes", "anchors": ["geomc/linalg/LUDecomp.h: decomp_plu, decomp_lup"]}
{"id": "C32", "title": "linear_solve returns the solution", "statement": "When linear_solve reports success, Mx=b holds for the result; when the matrix is nonsingular it reports success; when it is singular it reports failure.", "quantifier": "every size, matrix and right hand side", "why_tests_cant": "all sizes and entries", "anchors": ["geomc/linalg/LUDecomp.h: linear_solve, backsolve_plu, backsolve_lu"]}
{"id": "C33", "title": "Matrix inverse", "statement": "inv succeeds exactly on nonsingular matrices, and then the result times the input is the identity on both sides.", "quantifier": "every matrix of every size", "why_tests_cant": "symbolic entries", "anchors": ["geomc/linalg/mtxdetail/MatrixInv.h: inv2x2, inv3x3, inv4x4, invNxN, diagonal and permutation specialisations"]}
{"id": "C34", "title": "Matrix determinant", "statement": "det_2x2, det_3x3, det_4x4, the generic determinant, and the diagonal and permutation specialisations all equal the mathematical determinant.", "quantifier": "every matrix of every size", "why_tests_cant": "symbolic entries", "anchors": ["geomc/linalg/mtxdetail/MatrixDet.h: det2x2, det3x3, det4x4, detNxN, det"]}
{"id": "C35", "title": "Cholesky factorisation", "statement": "cholesky succeeds exactly on symmetric positive definite input (reading one triangle) and then the lower triangular result L satisfies L L^T = A.", "quantifier": "every size and symmetric matrix over the reals", "why_tests_cant": "all sizes", "anchors": ["geomc/linalg/Cholesky.h: cholesky"]}
{"id": "C36", "title": "Orthogonalisation and null spaces", "statement": "orthogonalize yields pairwise orthogonal vectors with the same span; orthogonal returns a vector orthogonal to all its n-1 inputs, zero iff they are dependent; nullspace returns vectors orthogonal to all inputs; project_to_basis / orthogonal complement are orthogonal projections.", "quantifier": "every dimension and input vectors", "why_tests_cant": "all dimensions, degenerate input", "anchors": ["geomc/linalg/Orthogonal.h: orthogonal, nullspace, orthogonalize, project_to_orthogonal_basis"]}
{"id": "C37", "title": "Vector products, projections and extremal components", "statement": "project_on gives the component parallel to the axis with the remainder orthogonal; cross is orthogonal to both operands with squared length |a|^2|b|^2-(a.b)^2; argmax/argmin return the first index of largest/smallest magnitude; componentwise min/max/clamp/mix are what they say.", "quantifier": "all vectors of every dimension", "why_tests_cant": "all values including ties and zeros", "anchors": ["geomc/linalg/vecdetail/VecBase.h: dot, project_on, fraction_on, argmax, argmin, min, max, clamp, mix", "geomc/linalg/vecdetail/Vec3.h: cross"]}
{"id": "C38", "title": "Polar and spherical coordinates round-trip", "statement": "from_polar and from_spherical build the vector with the stated radius and angles, and are inverted by to_polar / to_spherical.", "quantifier": "all radii and angles", "why_tests_cant": "continuous domain", "anchors": ["geomc/linalg/vecdetail/Vec2.h: from_polar, to_polar, angle", "geomc/linalg/vecdetail/Vec3.h: to_spherical, from_spherical"]}
{"id": "C39", "title": "Axis-angle vector rotation", "statement": "Vec3.rotate(axis, angle) (through the origin or about a centre) preserves length, fixes the axis, and equals the right-handed rotation about the axis; align maps one direction onto the other.", "quantifier": "all vectors, axes, centres and angles", "why_tests_cant": "continuous domain", "anchors": ["geomc/linalg/vecdetail/Vec3.h: rotate, align", "geomc/linalg/vecdetail/Vec2.h: rotated, left_perpendicular"]}
{"id": "C40", "title": "Quaternion algebra and rotation", "statement": "Multiplication is associative with multiplicative norm and conjugation reverses products; q*v with unit q is a rotation (isometry preserving cross products), composition of quaternions composes rotations, and the axis-angle quaternion rotates about that axis by that angle.", "quantifier": "all quaternions and vectors", "why_tests_cant": "continuous domain", "anchors": ["geomc/linalg/Quaternion.h: operator*, conj, norm, rotation_from_axis_angle, operator*(Vec)"]}
{"id": "C41", "title": "AffineTransform keeps its inverse consistent over every history", "statement": "Every AffineTransform built from translation, scale, rotation, transformation(nonsingular) and combined by * / *= /= inverse has a stored inverse that really is the inverse of its matrix, so apply_inverse undoes apply for points, directions and normals.", "quantifier": "every dimension and construction history", "why_tests_cant": "histories", "anchors": ["geomc/linalg/AffineTransform.h: operator*, operator/, *=, /=, inverse, apply, apply_inverse, translation, scale, rotation"]}
{"id": "C42", "title": "AffineTransform composition and normals", "statement": "(a*b) applied to p equals a applied to (b applied to p); in-place *= appends the transform after; directions ignore translation; transformed normals stay orthogonal to transformed tangents.", "quantifier": "all transforms and points", "why_tests_cant": "continuous domain", "anchors": ["geomc/linalg/AffineTransform.h: operator*, *=, apply, apply_direction, apply_normal"]}
{"id": "C43", "title": "Rotation constructors are rotations", "statement": "The rotation matrices built for 2D angle, coordinate axes, arbitrary axis-angle and centre are orthogonal with determinant one, their stored inverse is the transpose, they fix the axis/centre; direction_align maps the first direction to the second.", "quantifier": "all angles, axes, centres", "why_tests_cant": "continuous domain", "anchors": ["geomc/linalg/AffineTransform.h: rotation, rotmat, direction_align"]}
{"id": "C44", "title": "Ray distance and projection", "statement": "Ray.project returns the parameter of the closest point of the line, at_multiple evaluates o+sv, and dist2 is the squared distance from the point to the line.", "quantifier": "all rays with nonzero direction and points", "why_tests_cant": "continuous domain", "anchors": ["geomc/linalg/Ray.h: project, dist2, at_multiple"]}
{"id": "C45", "title": "Rect is the set algebra of boxes", "statement": "contains(p) is the per-axis interval test; union is the smallest box containing both; intersection contains exactly the common points; an empty rect is the unit of union; translation/scaling/Minkowski arithmetic act pointwise; subset test is set inclusion.", "quantifier": "every dimension, every pair of rects and point", "why_tests_cant": "all relative positions in every dimension", "anchors": ["geomc/shape/Rect.h: contains, operator|, operator&, operator+, operator-, is_empty, volume"]}
{"id": "C46", "title": "Rect intersection test", "statement": "intersects(a,b) is true exactly when the two closed boxes share a point, for real and integer boxes.", "quantifier": "all pairs of boxes", "why_tests_cant": "boundary cases in all dimensions", "anchors": ["geomc/shape/Rect.h: intersects"]}
{"id": "C47", "title": "Rect distance and projection", "statement": "clip(p) is the closest point of the box; dist2 is the squared distance; sdf is negative strictly inside with the right magnitude; project lands on the boundary at the closest boundary point.", "quantifier": "all boxes and points", "why_tests_cant": "continuous domain, all dimensions", "anchors": ["geomc/shape/Rect.h: clip, dist2, sdf, project"]}
{"id": "C48", "title": "Rect remap, support and contact", "statement": "remap/unmap are mutually inverse between the box and the unit cube; convex_support(d) is a corner maximising the dot product with d over the box; contact_vector translates the box just out of overlap.", "quantifier": "all non-degenerate boxes and points", "why_tests_cant": "continuous domain", "anchors": ["geomc/shape/Rect.h: remap, unmap, convex_support, contact_vector"]}
{"id": "C49", "title": "Ray/Rect slab test", "statement": "The returned parameter interval is exactly the set of ray parameters at which the ray lies in the box, including rays parallel to an axis.", "quantifier": "all rays and boxes", "why_tests_cant": "zero direction components", "anchors": ["geomc/shape/Rect.h: intersect(Ray)"]}
{"id": "C50", "title": "Sphere queries", "statement": "contains/sdf/project/convex_support/bounds and ray intersection agree with the closed ball; sphere-sphere and sphere-rect intersects are true exactly when they share a point.", "quantifier": "all spheres, points, rays in every dimension", "why_tests_cant": "continuous domain", "anchors": ["geomc/shape/Sphere.h: contains, sdf, project, clip, convex_support, bounds, intersect, intersects"]}
{"id": "C51", "title": "Capsule queries", "statement": "contains, sdf, support, bounds and sphere intersection of a capsule agree with the set of points within radius of the axis segment.", "quantifier": "all capsules and points in every dimension", "why_tests_cant": "continuous domain", "anchors": ["geomc/shape/Capsule.h: contains, sdf, convex_support, bounds, intersects"]}
{"id": "C52", "title": "Cylinder queries", "statement": "contains is the set of points whose axial parameter lies in [0,1] and radial distance is at most radius; sdf is a signed distance consistent with contains; convex_support and bounds enclose it.", "quantifier": "all cylinders and points", "why_tests_cant": "continuous domain", "anchors": ["geomc/shape/Cylinder.h: contains, sdf, convex_support, bounds"]}
{"id": "C53", "title": "Dilated, extruded and frustum wrappers", "statement": "Each wrapper's containment, support function, signed distance and bounds are those of the transformed set, given that the wrapped shape's are right.", "quantifier": "every wrapped shape and point", "why_tests_cant": "quantifies over shapes", "anchors": ["geomc/shape/Dilated.h", "geomc/shape/Extruded.h", "geomc/shape/Frustum.h"]}
{"id": "C54", "title": "Oriented shapes", "statement": "A transformed shape contains p iff the original contains the inverse image of p; its support function and bounds are those of the image; transforming by a then b equals transforming by b*a.", "quantifier": "every shape, transform and point", "why_tests_cant": "quantifies over shapes and transforms", "anchors": ["geomc/shape/Oriented.h: contains, convex_support, bounds, operators"]}
{"id": "C55", "title": "Plane queries", "statement": "distance is the signed distance to the plane, project is the closest plane point, contains is the half space; transforming a plane by an affine map gives the plane through the images; intersects tests with convex shapes and spheres hold iff they share a point.", "quantifier": "all planes, points, transforms, shapes", "why_tests_cant": "continuous domain", "anchors": ["geomc/shape/Plane.h: distance, contains, project, intersects, apply, apply_inverse"]}
{"id": "C56", "title": "Simplex queries", "statement": "contains agrees with having non-negative barycentric coordinates; convex_support returns a vertex of maximal dot product; inserting and excluding vertices keep the vertex set; bounds enclose.", "quantifier": "every dimension, simplex and point", "why_tests_cant": "all dimensions and degeneracies", "anchors": ["geomc/shape/Simplex.h: contains, convex_support, insert, excluded, measure"]}
{"id": "C57", "title": "GJK never reports a false miss", "statement": "When the convex intersection test reports disjoint, the shapes really share no point, whichever support points the shapes return, however many iterations are allowed and whatever earlier tests left behind; the separation axis then separates the shapes.", "quantifier": "all pairs of convex shapes given by support functions", "why_tests_cant": "all shapes, all loop counts", "anchors": ["geomc/shape/Intersect.h: gjk_intersect"]}
{"id": "C58", "title": "Separating axis test", "statement": "When a placed box is reported not to intersect another box, some direction separates the two and they share no interior point. When it is reported to intersect, the two boxes share a point: the directions tried are enough. The same holds between two placed boxes, and boxes that only touch are reported consistently.", "quantifier": "all pairs of oriented boxes in 2 and 3 dimensions", "why_tests_cant": "continuous domain", "anchors": ["geomc/shape/shapedetail/SeparatingAxis.h", "geomc/shape/Oriented.h: intersects"]}
{"id": "C59", "title": "Nearest-neighbour bounds", "statement": "The worst-case nearest distance used for pruning in the spatial index is an upper bound on the distance to some contained object for a minimal bounding box, and box distance a lower bound, so pruning never drops the true nearest.", "quantifier": "every dimension, box and query point", "why_tests_cant": "all configurations", "anchors": ["geomc/shape/shapedetail/IndexHelpers.h: worst_case_nearest2", "geomc/shape/KDTree.h"]}
{"id": "C60", "title": "Bin lattice coverage", "statement": "Iterating over a query of a bin lattice yields each item at most once: every item inserted at a location in the queried region (and not erased), and no item further than one cell outside it.", "quantifier": "every lattice size, insertion history, query", "why_tests_cant": "histories", "anchors": ["geomc/shape/BinLatticePartition.h: insert, binRegion"]}
{"id": "C61", "title": "Dual arithmetic computes exact derivatives", "statement": "For differentiable inputs, every Dual operation (+,-,*,/,unary minus, scalar mixes, fma) returns the value and the derivative of the composed function.", "quantifier": "all differentiable functions and points in the domain", "why_tests_cant": "quantifies over functions", "anchors": ["geomc/function/functiondetail/DualFunctions.h: operator+,-,*,/ and scalar overloads"]}
{"id": "C62", "title": "Dual transcendental functions compute exact derivatives", "statement": "sin, cos, tan, asin, acos, atan, atan2, exp, log, pow, sqrt, abs, min, max, ceil, floor propagate derivatives by the chain rule wherever the function is differentiable.", "quantifier": "all differentiable functions and points of the domain", "why_tests_cant": "quantifies over functions", "anchors": ["geomc/function/functiondetail/DualFunctions.h: sin..pow, abs, min, max"]}
{"id": "C63", "title": "Dual conversion and comparison", "statement": "Converting a Dual between discontinuity policies keeps value and derivative; comparison operators compare values only; digests agree with equality.", "quantifier": "all duals", "why_tests_cant": "all values", "anchors": ["geomc/function/functiondetail/DualImpl.h: converting constructor, operators", "geomc/function/functiondetail/DualFunctions.h: Digest"]}
{"id": "C64", "title": "Chebyshev and Legendre recurrences", "statement": "chebyshev(1|2,n,x) is T_n(x) / U_n(x); legendre(n,x) is the Legendre polynomial; legendre_integral is its integral from -1; associated legendre(l,m,x) satisfies the standard recurrence and definition.", "quantifier": "every degree n and real x", "why_tests_cant": "all degrees", "anchors": ["geomc/function/Basis.h: chebyshev, legendre, legendre_integral"]}
{"id": "C65", "title": "Perlin noise value and gradient", "statement": "The noise is zero at every lattice point, continuous across cell faces, and the gradient returned beside the value is its exact derivative, for every dimension and every gradient table.", "quantifier": "every dimension, gradient table and point", "why_tests_cant": "all dimensions, continuous domain", "anchors": ["geomc/function/PerlinNoise.h: eval, gradient, fade"]}
{"id": "C66", "title": "Path interpolation", "statement": "Evaluating a path at the integer parameter k returns knot k's position, parameters before the first or after the last knot continue along that knot's ray, and position and velocity are continuous with the velocity at each knot equal to the knot's direction.", "quantifier": "every knot list and parameter", "why_tests_cant": "continuous domain", "anchors": ["geomc/function/Path.h: eval, ease"]}
{"id": "C67", "title": "Tree subtrees own contiguous item ranges", "statement": "After any sequence of item and node insertions and removals, each node's items form a contiguous range that is the concatenation of its children's ranges in order, parents' item counts are the sums, and traversal visits each node once.", "quantifier": "every tree and edit history", "why_tests_cant": "histories", "anchors": ["geomc/Tree.h: insert_child_node, insert_item, split, erase, update_boundary_items"]}
{"id": "C68", "title": "Random samplers land in their target sets", "statement": "unit, solidball, shell, box, cap, disk and arc samplers return points in the requested set for every random stream.", "quantifier": "every random stream and parameter", "why_tests_cant": "all streams", "anchors": ["geomc/random/RandomTools.h: Sampler", "geomc/random/SampleGeometry.h"]}
{"id": "C69", "title": "Interpolated raster sampling blends the surrounding samples", "statement": "copy writes the samples of each cell of a region once, in first-axis-consecutive order; linear sampling returns the multilinear blend of the 2^M samples around the point and stays between the least and greatest of them; nearest sampling picks a grid point at most half a cell away.", "quantifier": "every dimension, channel count, edge rule and sample position", "why_tests_cant": "the cell of 2^M samples, the iteration order and the weights interact", "anchors": ["geomc/function/Raster.h: copy, sample", "geomc/function/functiondetail/RasterDetail.h: _ImplRasterSample"]}
{"id": "C70", "title": "Spherical harmonics evaluation is the inner product with the direction's basis", "statement": "project(d,v) adds v times spherical_harmonic_coeff(l,m,d) to each coefficient (l,m); eval(d) is the sum of coefficient times basis value, hence eval(d) = dot(basis(d)); convolve multiplies band l by the kernel's coefficient l.", "quantifier": "every band count, function and direction", "why_tests_cant": "three separate implementations of the Legendre recurrence must agree for all degrees", "anchors": ["geomc/function/SphericalHarmonics.h: _eval, _project, basis, spherical_harmonic_coeff, convolve"]}
{"id": "C71", "title": "Zonal harmonics", "statement": "ZonalHarmonics eval is sum c_l P_l(x); generate_spot stores the Legendre series coefficients of the indicator of a cap; conversion to SphericalHarmonics preserves values in every direction and converting back restores the coefficients; dot sums over common bands; project adds val P_l(x).", "quantifier": "every band count, coefficients and angle", "why_tests_cant": "needs integrals of all Legendre polynomials", "anchors": ["geomc/function/SphericalHarmonics.h: ZonalHarmonics"]}
{"id": "C72", "title": "Applying an index permutation in place", "statement": "permutation_apply(p, n, v) and destructive_apply_permutation terminate for every permutation p and put the old element p[i] at position i; afterwards p holds the identity.", "quantifier": "every size, permutation and element type", "why_tests_cant": "n! permutations and arbitrary cycle structure", "anchors": ["geomc/linalg/mtxtypes/PermutationMatrix.h: permutation_apply", "geomc/linalg/LUDecomp.h: destructive_apply_permutation"]}
{"id": "C73", "title": "Partial pivoting bounds the factors", "statement": "With decomp_plu every multiplier of the unit triangular factor lies in [-1,1]; with decomp_lup every row of the triangular factor is bounded by its pivot.", "quantifier": "every matrix size and content", "why_tests_cant": "an invariant of all elimination histories", "anchors": ["geomc/linalg/LUDecomp.h: decomp_plu, decomp_lup"]}
{"id": "C74", "title": "Quaternion exponential, logarithm and powers", "statement": "exp is the quaternion exponential series; log inverts exp on vector parts shorter than pi and exp(log q) = q for every nonzero quaternion; pow(q,n) is the n-fold product and pow obeys the law of exponents.", "quantifier": "all quaternions and exponents", "why_tests_cant": "continuous domain, degenerate branches at the real axis", "anchors": ["geomc/linalg/Quaternion.h: exp, log, pow"]}
{"id": "C75", "title": "Changing the dimension of a transform keeps it consistent", "statement": "resized<M>() embeds or truncates the transform: shared coordinates transform as before, new coordinates are unchanged, and the stored inverse is still the inverse.", "quantifier": "all transforms and dimensions", "why_tests_cant": "continuous domain and all dimension pairs", "anchors": ["geomc/linalg/AffineTransform.h: resized"]}
{"id": "C76", "title": "Sizes of boxes and boxes of given sizes", "statement": "volume() is the measure of a real box and the number of cells of an integer box; from_center, from_corner, set_dimensions and centered_on give boxes with the requested centre, corner and sizes (the absolute values of those given); fitted_to gives the smallest box of the same proportions and signs containing the other.", "quantifier": "all boxes, sizes (positive and negative) and dimensions", "why_tests_cant": "measure and minimality over all boxes; parity and sign cases of integer division", "anchors": ["geomc/shape/Rect.h: volume, dimensions, from_center, from_corner, set_dimensions, center, fitted_to"]}
{"id": "C77", "title": "Queries inherited from the shape base classes", "statement": "A shape whose support function is right inherits the smallest bounding box; one whose signed distance is right inherits containment; one whose containment and projection are right inherits the signed distance, clip (nearest point of the shape) and the outward unit normal.", "quantifier": "every closed shape and point", "why_tests_cant": "quantifies over shapes", "anchors": ["geomc/shape/Shape.h: Convex::bounds, SdfEvaluable::contains, Projectable::sdf, normal, clip"]}
{"id": "C78", "title": "Nearest points of simplexes", "statement": "clip returns the point of the simplex nearest to the query and the face that holds it in its interior; project returns the nearest point of the surface from inside and outside (of the simplex itself if it has fewer vertices than fill the space); sdf is the signed distance; normal is the outward unit direction.", "quantifier": "every point and every simplex with affinely independent vertices, with any number of vertices, in any number of dimensions", "why_tests_cant": "the search over faces prunes by sign tests; its correctness depends on the positions of all 15 faces relative to the point", "anchors": ["geomc/shape/shapedetail/SimplexProject.h: _find_nearest_face, exclude, normal_direction", "geomc/shape/Simplex.h: sdf, normal, project, clip"]}
{"id": "C79", "title": "GJK finds every overlap", "statement": "The convex intersection test always gives an answer in two and three dimensions; an answer that the shapes meet is right; for polytopes it is exact.", "quantifier": "all pairs of convex shapes given by support functions", "why_tests_cant": "all shapes, all sequences of simplexes, degenerate configurations and the iteration limit", "anchors": ["geomc/shape/Intersect.h: Intersector::intersects, intersects", "geomc/shape/shapedetail/SimplexProject.h"]}
{"id": "C80", "title": "Building a spatial index", "statement": "A spatial index constructed from any objects holds each object exactly once, in leaves of at most the given size, with boxes tight around their objects, so that nearest() returns a nearest object; construction terminates.", "quantifier": "all object sequences, parameters and query points", "why_tests_cant": "all inputs, including coinciding objects; recursion depth", "anchors": ["geomc/shape/KDTree.h: KDTree, rebalance, buildTree, splitNode"]}
{"id": "C81", "title": "Children of spatial index nodes", "statement": "Iterating over the children of a node of a spatial index visits exactly the nodes made for it, and a search visits no more children than its buffer holds.", "quantifier": "all sequences of node insertions", "why_tests_cant": "all tree shapes", "anchors": ["geomc/shape/KDTree.h: insertChild, nearestInNode"]}
{"id": "C82", "title": "Samplers reach all of their set", "statement": "Every point of the set that a sampler is documented to sample can be returned: balls, boxes, spheres, shells, caps, disks and arcs.", "quantifier": "every parameter and every point of the set", "why_tests_cant": "existence of a stream for every point of a continuous set", "anchors": ["geomc/random/RandomTools.h: Sampler"]}
{"id": "C83", "title": "Samples are uniformly distributed", "statement": "Given independent uniform values, box() and solidball() return a point of any part of the box or ball with probability proportional to its volume, unit() has a distribution unchanged by rotations and reflections, cap() returns a point of any part of the cap with probability proportional to its area, disk() and arc() likewise by area and length, and solidball(radius) is uniform too.", "quantifier": "every dimension, every measurable set, any number of draws", "why_tests_cant": "a statement about probabilities; sampling only estimates them", "anchors": ["geomc/random/RandomTools.h: Sampler"]}
{"id": "C84", "title": "Subtree ranges, searches and queries in trees", "statement": "subtree_end() of a node is the position after its last descendant, so that iterating from the node visits exactly its subtree; find_parent(item) is the leaf that holds the item; query(key) returns exactly the descendants that pass the test and whose ancestors all pass the bound.", "quantifier": "all trees reachable by insertions, splits and removals; all keys, bounds and tests", "why_tests_cant": "all tree shapes and orders of insertion", "anchors": ["geomc/Tree.h: subtree_end, find_parent, query, QueryIterator, node_successor"]}
{"id": "C85", "title": "Removing parts of trees", "statement": "flatten() removes all descendants of a node and keeps its items; clear() removes also its items; erase(child) removes a child with its subtree and items and returns the next sibling; the rest of the tree is unchanged.", "quantifier": "all trees reachable by insertions, splits and removals", "why_tests_cant": "all tree shapes and orders of operations", "anchors": ["geomc/Tree.h: flatten, clear, erase"]}
{"id": "C86", "title": "Comparing and copying trees", "statement": "Trees are equal exactly if they have the same nodes in the same structure with the same data and items; a copy is equal to its original; a tree made from a range of items holds these and counts them.", "quantifier": "all trees reachable by insertions, splits and removals", "why_tests_cant": "all pairs of trees and of orders of construction", "anchors": ["geomc/Tree.h: operator==, Tree"]}
{"id": "C87", "title": "Unique storage owns its array", "statement": "In every program that constructs, copies, moves, assigns, writes to and destroys dynamic UniqueStorages, each behaves as an independent list: no access is outside an array or to a freed one, no array is freed twice, each allocated array belongs to exactly one storage, and none is left when all are destroyed.", "quantifier": "all programs, sizes and element values", "why_tests_cant": "all interleavings of operations on any number of objects", "anchors": ["geomc/Storage.h: UniqueStorage"]}
{"id": "C88", "title": "Shared and fixed storage", "statement": "Copies of a dynamic Storage are names of the same array, which is freed with the last of them; a storage of fixed size constructed from n elements holds them.", "quantifier": "all programs, sizes and element values", "why_tests_cant": "all interleavings of operations on any number of objects", "anchors": ["geomc/Storage.h: Storage, UniqueStorage"]}
{"id": "C89", "title": "Outward normals", "statement": "normal(p) is the unit vector along which p lies from the nearest surface point at its signed distance, and the shape lies behind the plane through that point across it: for spheres, capsules, cylinders, extruded and dilated shapes, and the default for convex shapes.", "quantifier": "every point and every convex shape with right queries", "why_tests_cant": "all points inside, outside and on the surface, all shapes", "anchors": ["geomc/shape/Sphere.h: normal", "geomc/shape/Capsule.h: normal", "geomc/shape/Cylinder.h: normal", "geomc/shape/Dilated.h: normal", "geomc/shape/Extruded.h: normal", "geomc/shape/Shape.h: Projectable::normal"]}
{"id": "C90", "title": "Nested shapes answer right at any depth", "statement": "A shape made from boxes, spheres and capsules by extruding, tapering to a frustum, dilating and transforming, any number of times in any order, has the right support points, the smallest bounds and right containment; without boxes, frustums and transforms also the right signed distance.", "quantifier": "every nesting, of any depth and dimension", "why_tests_cant": "infinitely many types", "anchors": ["geomc/shape/Extruded.h", "geomc/shape/Frustum.h", "geomc/shape/Dilated.h", "geomc/shape/Oriented.h"]}
{"id": "C91", "title": "A zonal function about another axis", "statement": "A SphericalHarmonics constructed from a ZonalHarmonics and an axis has in every direction the value of the zonal function at the cosine of the angle between the direction and the axis.", "quantifier": "every number of bands, coefficients, axis and direction", "why_tests_cant": "needs the addition theorem for spherical harmonics; a test checks finitely many directions", "anchors": ["geomc/function/SphericalHarmonics.h: SphericalHarmonics(zh, new_axis)"]}
{"id": "C92", "title": "Spherical convolution", "statement": "convolve(kernel) of a spherical or zonal harmonics function gives the function whose value in each direction is the integral over the sphere of the original weighted by the kernel about that direction.", "quantifier": "every number of bands, coefficients and direction", "why_tests_cant": "an integral over the sphere at each of infinitely many directions", "anchors": ["geomc/function/SphericalHarmonics.h: SphericalHarmonics::convolve, ZonalHarmonics::convolve"]}
{"id": "C93", "title": "Zonal generators, blurring and normalising", "statement": "generate_lambertian gives the Legendre series of max(0, cos); diffuse(t) is t-fold self-convolution: diffuse(1) changes nothing, diffuse(a+b) is diffuse(a) convolved with diffuse(b), diffuse(0) is the identity kernel; normalize() makes the integral over the sphere 1.", "quantifier": "every number of bands, order, coefficients and real t", "why_tests_cant": "infinitely many bands; integrals", "anchors": ["geomc/function/SphericalHarmonics.h: ZonalHarmonics::generate_lambertian, diffuse, normalize"]}
{"id": "C94", "title": "Cubic raster sampling", "statement": "Sampling a raster with cubic interpolation gives the tensor-product Catmull-Rom blend of the 4^M discrete samples around the position, for every edge behaviour. So a grid point gives its own sample, data that is a polynomial of degree at most two in each coordinate is reproduced at every position, and neighbouring cells agree on their common face.", "quantifier": "every dimension, channel count, edge behaviour, data and position", "why_tests_cant": "the blend has 4^M terms and positions are continuous", "anchors": ["geomc/function/functiondetail/RasterDetail.h: _ImplRasterSample<..., INTERP_CUBIC>", "geomc/function/Raster.h: sample"]}
{"id": "C95", "title": "Accuracy of the product formulas", "statement": "diff_of_products and sum_of_products on floating-point arguments are within 1.5 units in the last place of the exact value of ab - cd and ab + cd, however much the products cancel; multiply_add rounds once; mix returns its ends exactly.", "quantifier": "every precision, rounding to nearest and floating-point arguments, barring overflow and underflow", "why_tests_cant": "2^256 argument tuples for double, and the bad ones are rare", "anchors": ["geomc/function/Utils.h: diff_of_products, sum_of_products, multiply_add, mix"]}
{"id": "C96", "title": "Arithmetic of spherical functions", "statement": "For SphericalHarmonics functions, *= k, /= k and unary minus multiply, divide and negate the value in every direction; a += b adds the values of b; a += k adds the constant k.", "quantifier": "every number of bands, coefficients, constant and direction", "why_tests_cant": "functions of a continuous direction with any number of bands", "anchors": ["geomc/function/SphericalHarmonics.h: operator-, operator*=, operator/=, operator+="]}
{"id": "C97", "title": "The hue circle", "statement": "rainbow(s) is a closed, continuous curve of fully saturated colours with period 1: red, green and blue at 0, 1/3 and 2/3, every colour has a channel 0 and a channel 1, all are in the unit cube, and two parameters give the same colour exactly if they differ by an integer.", "quantifier": "every real parameter", "why_tests_cant": "a continuous parameter of any sign and size", "anchors": ["geomc/linalg/vecdetail/Vec3.h: rainbow"]}
{"id": "C98", "title": "Dimensions are checked", "statement": "Matrix operations on objects with fixed or run-time dimensions run exactly when the dimensions fit; otherwise they are refused at compile time or throw DimensionMismatchException before touching an element.", "quantifier": "all static/dynamic combinations of types, all sizes", "why_tests_cant": "every combination of types and sizes", "anchors": ["geomc/linalg/Matrix.h: mul, mul_acc, add, sub, transpose, inv, mtxequal", "geomc/linalg/mtxdetail/MatrixCopy.h: mtxcopy", "geomc/linalg/mtxdetail/MatrixMult.h", "geomc/linalg/mtxtypes/SimpleMatrix.h"]}
{"id": "C99", "title": "Constructing a matrix", "statement": "A new SimpleMatrix has the dimensions and elements it is given: the identity by default, the elements of an array or list in the documented order, the vectors given as its rows or columns, or the elements of another matrix; size arguments for fixed dimensions are ignored; as_transpose() is a view of the transpose.", "quantifier": "every combination of fixed and dynamic dimensions, layout, size and element values", "why_tests_cant": "all sizes and both layouts; wrong sizes corrupt memory silently", "anchors": ["geomc/linalg/mtxtypes/SimpleMatrix.h: SimpleMatrix, as_transpose", "geomc/Storage.h: UniqueStorage", "geomc/linalg/mtxdetail/MatrixCopy.h: _mtxcopy"]}
{"id": "C100", "title": "Iterating over a matrix or a region of it", "statement": "A loop from begin() to end() of any matrix visits its elements in row-major order, each exactly once. A loop from region_begin(r) to region_end(r) visits exactly the elements of r, the upper extreme of which is exclusive, in row-major order.", "quantifier": "all dimensions and regions", "why_tests_cant": "unbounded sizes; termination of the loop", "anchors": ["geomc/linalg/mtxdetail/MatrixBase.h: begin, end, region_begin, region_end", "geomc/linalg/mtxdetail/MatrixIterator.h: MtxSubsetIterator"]}
{"id": "C101", "title": "Compound assignment of dual numbers", "statement": "After any sequence of the statements x += y, x -= y, x *= y, x /= y on Dual variables (y a Dual or a scalar), every variable holds the value and the derivative of the function the sequence computes, also when x and y are the same variable; only the variable on the left changes.", "quantifier": "all programs of such statements, all differentiable inputs, all aliasings", "why_tests_cant": "needs all programs and derivatives over the reals; the two operands may be one object", "anchors": ["geomc/function/functiondetail/DualFunctions.h: operator+=, operator-=, operator*=, operator/="]}
{"id": "C102", "title": "Arithmetic operators of vectors", "statement": "The operators +, -, *, / of vectors and their assignment forms act on every element separately, leave everything else unchanged, may be applied to a vector and itself or one of its own elements, and v op= s has the effect of v = v op s, whatever the types of the elements and of the scalar.", "quantifier": "all dimensions, placements, elements and scalars", "why_tests_cant": "all dimensions and all values; the two spellings convert mixed types at different places", "anchors": ["geomc/linalg/vecdetail/VecBase.h: operator+=, operator-=, operator*=, operator/=, scale", "geomc/linalg/Vec.h: operator*, operator/"]}
{"id": "C103", "title": "Rasters as objects", "statement": "A new raster is zero everywhere or holds the given items, first axis consecutive; reading a raster gives the value last written there; a write through one raster does not change another, copies included; samplecount() is the number of grid points; the background value has a defined initial value.", "quantifier": "every dimension, channel count and sequence of constructions, copies and writes", "why_tests_cant": "histories; all extents and coordinates", "anchors": ["geomc/function/Raster.h: Raster, set, setAbyss, sample_discrete, samplecount"]}
{"id": "C104", "title": "Floating-point error of dot products, lengths, normalisation and cross products", "statement": "With correctly rounded floating-point arithmetic: dot(u,v) of n components is within ((1+eps)^n - 1) * sum|u_i v_i| of the exact value, is symmetric, returns a component exactly against a coordinate axis and is exact on integers while the products sum to at most 2^p. mag2, mag, dist2 and dist have a relative error bounded by powers of (1 +- eps), are never negative and are zero exactly for the zero vector or equal points. unit() is defined for each non-zero vector, keeps signs and has a length within the same kind of bound of 1. Each component of cross() has relative error at most 3 eps, so the product is zero exactly for parallel vectors. Swapping the arguments of cross() negates the result exactly.", "quantifier": "All dimensions n, all precisions p, all float vectors, all round-to-nearest functions (any tie breaking)", "why_tests_cant": "An error bound speaks about every pair of vectors of every length; tests sample a few and compare against an arbitrary tolerance.", "anchors": ["geomc/linalg/vecdetail/VecBase.h:499-505", "geomc/linalg/vecdetail/VecBase.h:538-598", "geomc/linalg/vecdetail/Vec3.h:206-218", "geomc/function/functiondetail/UtilDetail.h:72-88"]}
{"id": "C105", "title": "Hashes of geometric values", "statement": "geom::hash (and std::hash) of vectors, matrices, quaternions, boxes, planes, spheres, capsules, cylinders, dilated, extruded, frustum and oriented shapes and affine transforms terminates, gives equal values equal hashes at every depth of nesting, is sensitive to the last member, and mixes in a constant that is different for each type at every word size. Matrices that compare equal have equal hashes whatever their layouts.", "quantifier": "All values of all these types, nested to any depth, all word sizes up to that of size_t, all hashes of scalars that respect ==", "why_tests_cant": "Termination and consistency with == concern every nesting of templates; which specialisation is selected is decided per instantiation, and a test would have to instantiate them all.", "anchors": ["geomc/Hash.h:27-35", "geomc/Hash.h:69-78", "geomc/Hash.h:202-266", "geomc/linalg/AffineTransform.h:876-895", "geomc/linalg/Vec.h:339-345", "geomc/linalg/mtxtypes/SimpleMatrix.h:635-641", "geomc/shape/Oriented.h:355-371"]}
{"id": "C106", "title": "Vector operations near the smallest floating-point numbers", "statement": "With gradual underflow (smallest positive float 2^q): where the exact products of components are multiples of 2^q, the error bounds of diff_of_products, sum_of_products, dot, mag2 and mag are those without underflow, and a length is zero only for the zero vector. Differences of vectors never underflow and are zero exactly for equal vectors. For all other vectors dot(u,v) is within ((1+eps)^n - 1) sum|u_i v_i| + n (1+eps)^n 2^(q-1) of the exact value. unit() is defined for each non-zero vector, dist is zero only for equal points, and the cross product vanishes only for parallel vectors.", "quantifier": "All dimensions n, precisions p, smallest exponents q, float vectors, and round-to-nearest functions with gradual underflow", "why_tests_cant": "The threshold depends on the format and lies far outside the values tests use (components below 1e-161 in double precision).", "anchors": ["geomc/linalg/vecdetail/VecBase.h:499-505", "geomc/linalg/vecdetail/VecBase.h:538-598", "geomc/linalg/vecdetail/Vec3.h:206-218", "geomc/function/functiondetail/UtilDetail.h:72-88"]}
{"id": "C107", "title": "Inner products and projection of spherical functions", "statement": "SphericalHarmonics::dot returns the integral over the sphere of the product of the two functions, for any two band counts. The coefficients are determined by the values, and dot(s,s) is zero only for the zero function. Projecting the values of a continuous function in all directions gives the function of that many bands with the least squared error, and reproduces a function that has no more bands. Projecting samples in uniformly distributed directions and dividing as documented converges to it. ZonalHarmonics::dot likewise returns the inner product of zonal functions.", "quantifier": "All band counts, coefficients, directions and continuous functions on the sphere", "why_tests_cant": "Each statement is an integral over the sphere, and the best-approximation statement also ranges over all competing functions.", "anchors": ["geomc/function/SphericalHarmonics.h:270-281", "geomc/function/SphericalHarmonics.h:657-668", "geomc/function/SphericalHarmonics.h:371-425", "geomc/function/SphericalHarmonics.h:450-482"]}
{"id": "C108", "title": "Boxes with infinite coordinates and NaN", "statement": "For float and double coordinates that may be infinite: Rect::contains is the range test, unions and intersections of boxes are the least box around both and the common part, Rect::full contains all points, the box of a point sequence is around all its points, Rect::intersects(Rect) compares the open ranges, a finite ray never gets a NaN for an answer and hits exactly where it is in the box. Clipping and clamping to a box or range that is not empty give a result in it for every input. A coordinate that is NaN is in no range.", "quantifier": "All dimensions, boxes, points, rays and values, infinities, signed zeros and NaN included", "why_tests_cant": "Each comparison has a case per pair of kinds of number (finite, two infinities, NaN, two zeros), and these multiply over two extremes, the point and every axis; the cases that go wrong involve a NaN in particular operands of min and max.", "anchors": ["geomc/shape/Rect.h:91-93", "geomc/shape/Rect.h:125", "geomc/shape/Rect.h:166-171", "geomc/shape/Rect.h:194-224", "geomc/shape/Rect.h:280-338", "geomc/shape/Rect.h:626-635", "geomc/shape/Rect.h:839-841", "geomc/shape/Rect.h:960-980", "geomc/function/Utils.h:87-90", "geomc/linalg/vecdetail/VecBase.h:786-792", "geomc/linalg/vecdetail/VecBase.h:396-401", "geomc/linalg/vecdetail/VecBase.h:851-856"]}
{"id": "C109", "title": "Vectors and spheres near the largest floating-point numbers", "statement": "Lengths, distances, dot products and directions of finite vectors are finite and approximately right, and Sphere::contains is right up to rounding, for all finite coordinates of type float or double.", "quantifier": "All dimensions, finite vectors, spheres and floating-point formats", "why_tests_cant": "The results go wrong only from about the square root of the largest number on, and silently: no test with ordinary values comes near, and where exactly the sums overflow depends on the rounding of every partial sum.", "anchors": ["geomc/linalg/vecdetail/VecBase.h:428-430", "geomc/linalg/vecdetail/VecBase.h:538-589", "geomc/linalg/vecdetail/UtilDetail.h:86-88", "geomc/shape/Sphere.h:63-65"]}
{"id": "C110", "title": "Random floats in a range", "statement": "rand<float>(hi), rand<double>(hi), rand(lo,hi): rand(hi) lies between 0 and hi for either sign of hi; rand(lo,hi) with lo <= hi lies between lo and hi; both reach their bounds and grow with the number drawn.", "quantifier": "all precisions, all roundings to nearest, all float bounds, all draws of the unit interval", "why_tests_cant": "the excess over the upper bound needs particular pairs of bounds and the draw 1, which has a chance of about 2^-25; tests of a few ranges do not meet it", "anchors": ["geomc/random/Random.cpp:258-265", "geomc/random/Random.cpp:287-294", "geomc/random/Random.h:198-204"]}
{"id": "C111", "title": "Floating-point error of transforms, matrix products, ray points and containment tests", "statement": "With correctly rounded floating-point arithmetic: each component of a matrix-vector or matrix-matrix product with n terms is within ((1+eps)^(n+1) - 1) of the exact one relative to the sum of the absolute products; AffineTransform::apply of a point within ((1+eps)^(n+2) - 1) relative to the absolute products and the translation. Translations round once per component; scalings, reflections, quarter turns and exchanges of axes round once or not at all. at_multiple(0) is the origin of the ray. Plane::contains and Sphere::contains are right for points that are not within the rounding error of the surface; spheres contain their centre and around the origin the ends of the axes; moving a point towards the centre does not take it out of the sphere; along the axes the half-space test is exact. Plane::contains and Sphere::contains agree with the exact shape.", "quantifier": "all dimensions, precisions, roundings to nearest, matrices, points, planes and spheres", "why_tests_cant": "statements about all floats and all precisions; tests compare with tolerances and do not tell an error bound from luck", "anchors": ["geomc/linalg/mtxdetail/MatrixMult.h:56-66", "geomc/linalg/mtxdetail/MatrixMult.h:185-193", "geomc/linalg/AffineTransform.h:216-233", "geomc/linalg/Ray.h:73-75", "geomc/shape/Plane.h:104-122", "geomc/shape/Sphere.h:63-65"]}
{"id": "C112", "title": "Traits of shape types", "statement": "For every shape type, also of wrapped shapes nested to any depth: shape_traits<S>::is_bounded, is_convex, is_ray_intersectable, has_sdf and is_projectable are true exactly if the queries of that concept (bounds; convex_support; intersect; sdf and contains; project) can be called on S.", "quantifier": "all shape types that can be formed from Sphere, Rect, Capsule, Cylinder and Simplex with Dilated, Extruded, Frustum, Oriented and as_any_convex, of any depth", "why_tests_cant": "there are infinitely many types, and tests that ask the traits first skip the code they were meant to check", "anchors": ["geomc/shape/Shape.h:355-388", "geomc/shape/Dilated.h:184-196", "geomc/shape/Extruded.h:227-257", "geomc/shape/Frustum.h:292-304", "geomc/shape/Oriented.h:338-350"]}
{"id": "C113", "title": "Rounding errors of LU decompositions and linear systems", "statement": "In floating point of any precision, with rounding to nearest and without overflow or underflow, for matrices of any size: the factors of decomp_plu multiply to a matrix that is close to the row-permuted input; what linear_solve and the inverse of a general matrix put in each column is the exact solution for a matrix close to the one given, with exactly the right-hand side given; and where they report failure the matrix is close to a singular one. Close means within (1+eps)^(3n) - 1 times the product of the factors with signs dropped, which is at most n (2 (1+eps))^(n-1) times the largest element.", "quantifier": "all sizes n and m, all matrices and right-hand sides, all precisions and ways to break ties, with or without fused multiply-add", "why_tests_cant": "each test sees the error of one matrix; the bound concerns all of them, and the worst cases are rare", "anchors": ["geomc/linalg/LUDecomp.h:189-252", "geomc/linalg/LUDecomp.h:333-401", "geomc/linalg/mtxdetail/MatrixInv.h:187-233"]}
{"id": "C114", "title": "Rounding errors of Cholesky decompositions", "statement": "In floating point of any precision, with rounding to nearest and without overflow or underflow: where cholesky returns true, L is lower triangular with positive diagonal and L times its transpose is close to the input (within g = (1+eps)^(n+1) - 1 times the product with signs dropped, and within 2g/(1-g) times the geometric mean of the two diagonal elements). It returns true whenever all symmetric matrices that close to the input are positive definite, and false if a diagonal element is not positive.", "quantifier": "all sizes, all matrices, all precisions and ways to break ties, with or without fused multiply-add", "why_tests_cant": "whether an ill-conditioned matrix is refused depends on the last bits of all previous operations; tests only see well-conditioned ones", "anchors": ["geomc/linalg/Cholesky.h:37-59"]}
{"id": "C115", "title": "Rounding errors of quaternion products and rotations", "statement": "In floating point of any precision, with rounding to nearest and without overflow or underflow: a product of two quaternions is right up to k = 2((1+eps)^4 - 1) times the product of their norms; k-fold compositions and sequences of rotations of a vector are right up to (1+k)^m - 1 of the exact norm or length (m products); the quaternion of an axis and an angle has the right signs and squares up to (1+-eps)^4/(1-+eps)^5. The identity and half turns about the axes are exact.", "quantifier": "all quaternions, vectors and sequences of any length, all precisions and ways to break ties, with or without fused multiply-add", "why_tests_cant": "drift over long compositions depends on accumulated last-bit errors; tests see a few short sequences", "anchors": ["geomc/linalg/Quaternion.h:86-92", "geomc/linalg/Quaternion.h:115-136", "geomc/linalg/Quaternion.h:154-189"]}
{"id": "C116", "title": "Rounding errors of determinants and inverses of sizes 2, 3 and 4", "statement": "With floating-point elements, the determinant of a 2x2 matrix has the right sign, is zero exactly for singular matrices, and is within three units of relative rounding error; the 2x2 inverse fails exactly for singular matrices and each of its elements has a relative error of about four units however badly conditioned the matrix is. For 3x3 and 4x4 matrices the determinant is within a few units of the permanent of the absolute values, the elements of the adjugate are within a few units of themselves (3x3) or of the permanents of their minors (4x4), and the inverse is accurate when the determinant is not lost in rounding. A user would hope that singular matrices, and only they, are reported as such for the sizes 3 and 4 too.", "quantifier": "All matrices of floats with p bits, all roundings to nearest, for every p; without overflow and underflow.", "why_tests_cant": "A test samples matrices; the worst cancellations are rare, and the statement is about every matrix and precision.", "anchors": ["geomc/linalg/mtxdetail/MatrixDet.h:37-84", "geomc/linalg/mtxdetail/MatrixInv.h:50-165"]}
{"id": "C117", "title": "Vectors of machine integers", "statement": "For vectors of integers, sums, differences, products, negations, absolute values, dot products, cross products and casts agree with exact arithmetic modulo the size of the element type, and are exact whenever the result fits; signed overflow is undefined exactly where stated; quotients and casts from floats round towards zero; the projection onto an axis is the exact one with fractions dropped; the length is the exact one rounded down; rounding a vector of integers returns it. A user would also hope that no operation on unsigned elements is undefined, that only the zero vector has length zero, that unit() has unit length, and that round() is always the identity.", "quantifier": "All vectors of every dimension and every integral element type (width and signedness are parameters; int has 32 bits, double 53), all values of the elements; floating-point conversions with every rounding to nearest.", "why_tests_cant": "The faults are at wrap-around, promotion of narrow types and conversion to double, for rare values of particular types; a test covers some type and some values.", "anchors": ["geomc/linalg/vecdetail/VecBase.h:382-389", "geomc/linalg/vecdetail/VecBase.h:415-469", "geomc/linalg/vecdetail/VecBase.h:487-580", "geomc/linalg/vecdetail/VecBase.h:632-635", "geomc/linalg/vecdetail/VecBase.h:695-727", "geomc/linalg/vecdetail/VecBase.h:796-802", "geomc/linalg/Vec.h:126-174", "geomc/linalg/vecdetail/Vec3.h:206-218", "geomc/function/functiondetail/UtilDetail.h:57-67"]}
{"id": "C118", "title": "Boxes of machine integers", "statement": "For boxes with integer coordinates: dimensions() and volume() of a box that is not empty are its size and its number of cells whenever these fit the element type, undefined for int and wider signed types otherwise; translating, dilating and constructing boxes from a corner, projecting and measuring squared distances agree with exact arithmetic whenever the values fit; the results do not depend on whether the box has one dimension. A user would also expect that an empty box has volume zero, that the centre of a box is in the box, that moving or dilating a box does not make it empty, that project() chooses the nearer corner, and that a box may reach the greatest value.", "quantifier": "All dimensions, all integral element types (width and signedness are parameters), all boxes and points with values of the type.", "why_tests_cant": "The faults need values near the ends of the range of a particular type, or unsigned types; tests use small coordinates of type int.", "anchors": ["geomc/shape/Rect.h:94-96", "geomc/shape/Rect.h:155-161", "geomc/shape/Rect.h:365-401", "geomc/shape/Rect.h:655-668", "geomc/shape/Rect.h:778-780", "geomc/shape/Rect.h:800-807", "geomc/shape/Rect.h:850-861", "geomc/shape/Rect.h:876-878", "geomc/shape/Rect.h:1034-1048"]}
{"id": "C119", "title": "Iterating over regions of machine integers", "statement": "For coordinates of any integral type: a loop from begin() to end() visits each cell of a non-empty region once, in order, if the region does not reach the greatest value of the type; with one dimension and a type that wraps around, also if it does, unless it covers all values. The difference of two iterators is exact if the differences of their coordinates fit. A user would expect this for all regions and all pairs of iterators.", "quantifier": "All dimensions, both axis orders, all integral coordinate types (width and signedness are parameters), all regions and positions.", "why_tests_cant": "Only regions at the end of the range of the type, or backward differences of unsigned iterators, go wrong; some never end, which a test cannot observe.", "anchors": ["geomc/shape/GridIterator.h:108-142", "geomc/shape/GridIterator.h:166-176", "geomc/shape/GridIterator.h:222-256"]}
{"id": "C120", "title": "Moving trees", "statement": "A tree constructed from another by moving has the same nodes, children, items, data and counts, and can be used as the other could before.", "quantifier": "All trees reachable by insertions, splits and removals; all nodes, places and values.", "why_tests_cant": "The links that go wrong are compared, not shown: reads give the right result, and what an insertion then does depends on the implementation of std::list.", "anchors": ["geomc/Tree.h:186-188", "geomc/Tree.h:145-161", "geomc/Tree.h:356-393", "geomc/Tree.h:854-900"]}
{"id": "C121", "title": "Boxes of floating-point numbers", "statement": "For boxes of float or double, center() is a point of the box; a box made from a centre or made larger contains the points it should; dist2, volume, remap and unmap agree with the exact values up to rounding, remap maps the unit cube into the box, fitted_to contains the other box, and a ray that meets the box is reported to.", "quantifier": "All boxes, points and rays of all dimensions; every binary precision; every rounding to nearest, however ties are broken; no overflow or underflow.", "why_tests_cant": "Rounding errors of boxes appear at single values among 2^64; a test compares with a tolerance and picks round numbers.", "anchors": ["geomc/shape/Rect.h:136-144", "geomc/shape/Rect.h:655-697", "geomc/shape/Rect.h:752-807", "geomc/shape/Rect.h:876-903", "geomc/shape/Rect.h:960-980"]}
{"id": "C122", "title": "Quadratic equations in floating point", "statement": "For float and double, quadratic_solve returns true exactly if the equation has a real root and its coefficients are not all zero; each result is one of the two exact roots up to a few roundings however close the roots are or however different in size; equal roots give equal results.", "quantifier": "All coefficients; every binary precision; every rounding to nearest, however ties are broken; both signs of zero; no overflow or underflow.", "why_tests_cant": "The hard cases are discriminants near zero and roots of very different sizes: a test of some coefficients cannot show that no root is ever lost or inaccurate.", "anchors": ["geomc/function/Utils.h:180-192", "geomc/function/functiondetail/UtilDetail.h:72-77"]}
{"id": "C123", "title": "Rays and spheres in floating point", "statement": "For float and double, a ray that meets a sphere is reported to, one that misses it is reported to miss, and the ends of the interval are the places where the ray enters and leaves up to rounding.", "quantifier": "All spheres and rays of all dimensions; every binary precision; every rounding to nearest; no overflow or underflow.", "why_tests_cant": "A ray is misjudged near tangency or where the sphere is small for its distance; tests use spheres about as large as their distance.", "anchors": ["geomc/shape/Sphere.h:102-118", "geomc/function/Utils.h:180-192"]}
{"id": "C124", "title": "Interpolation in floating point", "statement": "For float and double, mix, Vec::mix, interp_linear and interp_cubic return the blend of the samples up to rounding; at a sample they return the sample; a blend of values lies in the range of the values.", "quantifier": "All samples, parameters between zero and one and numbers of dimensions; every binary precision, and samples narrower than the literals; every rounding to nearest; no overflow or underflow.", "why_tests_cant": "Whether a blend leaves the range, or two cells disagree about the sample they share, depends on rare coincidences of roundings.", "anchors": ["geomc/function/Utils.h:99-164", "geomc/function/functiondetail/UtilDetail.h:79-84", "geomc/linalg/vecdetail/VecBase.h:667-674"]}
{"id": "C125", "title": "Remainders and angles in floating point", "statement": "For float and double, positive_mod(a, b) with positive b is not negative, less than b, and congruent to a up to rounding; angle_to returns the shortest turn up to rounding.", "quantifier": "All numbers and moduli; every binary precision; every rounding to nearest; no overflow or underflow.", "why_tests_cant": "The remainder leaves its range only for numbers next to a multiple of the modulus, which tests with round numbers miss.", "anchors": ["geomc/function/Utils.h:28-32", "geomc/function/Utils.h:199-214"]}
{"id": "C126", "title": "Signed distances in floating point", "statement": "For float and double, the signed distances to spheres, capsules and cylinders and the projection to a sphere are those of the exact shapes up to rounding, and are numbers for every point and every shape with an axis of positive length.", "quantifier": "All points and shapes; every dimension; every binary precision; every rounding to nearest; no overflow or underflow.", "why_tests_cant": "The error must be bounded for every position of the point, in particular next to the surface, the ends and the axis, where differences cancel; the failing points on the axis of a cylinder are rare.", "anchors": ["geomc/shape/Sphere.h:85-94", "geomc/shape/Capsule.h:85-90", "geomc/shape/Cylinder.h:59-103"]}
{"id": "C127", "title": "Orthogonalisation in floating point", "statement": "For float and double, orthogonalize returns vectors that span what the inputs span and are orthogonal to each other up to rounding; orthonormalize also gives them unit length; project_on is the component along the axis up to rounding.", "quantifier": "All vectors, numbers of vectors and dimensions; every binary precision; every rounding to nearest; no overflow or underflow.", "why_tests_cant": "Orthogonality is lost only for nearly dependent vectors, and the errors of the steps add up over all pairs of vectors.", "anchors": ["geomc/linalg/Orthogonal.h:187-196", "geomc/linalg/Orthogonal.h:216-221", "geomc/linalg/vecdetail/VecBase.h:630-633"]}
{"id": "C128", "title": "Planes in floating point", "statement": "For float and double, a plane made from a normal and a point, or from the corners of a segment or triangle, contains that point or those corners; its distances, its origin and its projections are those of the exact plane up to rounding; a projected point is on the plane.", "quantifier": "All normals, points, segments and triangles; every dimension (normal and point); every binary precision; every rounding to nearest; no overflow or underflow.", "why_tests_cant": "Whether a corner is found on its own plane depends on the last bits of a dot product; the direction of a narrow triangle's normal comes from cancelling products.", "anchors": ["geomc/shape/Plane.h:53-55", "geomc/shape/Plane.h:87-95", "geomc/shape/Plane.h:104-106", "geomc/shape/Plane.h:137-146", "geomc/linalg/Orthogonal.h:98-106"]}
{"id": "C129", "title": "Which simplexes contain a point, in floating point", "statement": "For float and double, the point test of a simplex agrees with the simplex's points up to rounding: a point said to be in is near the simplex, a point well inside is said to be in; vertices and points of shared edges are in.", "quantifier": "All simplexes and points; every dimension; every binary precision; every rounding to nearest, with and without fused multiplication; no overflow or underflow.", "why_tests_cant": "The test solves a linear system with pivoting; a wrong answer needs particular last bits of an elimination, and thin simplexes are badly conditioned.", "anchors": ["geomc/shape/Simplex.h:420-447", "geomc/linalg/LUDecomp.h"]}
{"id": "C130", "title": "Which shapes overlap (GJK), in floating point", "statement": "For float and double, the overlap test of convex shapes always gives an answer within its limit of iterations; shapes that overlap by more than rounding are reported to overlap, and shapes reported to be apart overlap by no more than rounding along some direction; points strictly inside a simplex overlap it, points outside do not, and the limit of the iterations is never reached in two and three dimensions.", "quantifier": "All pairs of shapes with support functions right up to a bound; every starting axis and leftover buffer; every limit; every binary precision and rounding to nearest; no overflow or underflow. Every dimension for the loop, two and three for the projection onto simplexes.", "why_tests_cant": "A wrong answer needs particular last bits in the projection of a thin simplex; the loop is steered by them through different faces, and no test can range over all pairs of shapes.", "anchors": ["geomc/shape/Intersect.h:45-97", "geomc/shape/shapedetail/SimplexProject.h:27-365", "geomc/shape/Simplex.h:525-536"]}
{"id": "C131", "title": "Which placed boxes overlap (separating axes), in floating point", "statement": "For float and double, the overlap test of a placed box and an axis aligned box: boxes that overlap by more than rounding are reported to overlap; boxes reported to be apart overlap by no more than rounding along some direction; boxes reported to overlap do so once one is widened by as much as rounding; boxes that share inner points are reported to overlap, and boxes with a gap between them are not.", "quantifier": "All boxes that are not empty and all transforms; every binary precision and rounding to nearest; no overflow or underflow. Reports of being apart: every dimension, whatever axes are tried. Reports of overlap: two dimensions with any held inverse, three dimensions with an exact one.", "why_tests_cant": "Wrong answers need boxes within a few units in the last place of touching, at particular angles; the three dimensional test compares along fifteen axes.", "anchors": ["geomc/shape/shapedetail/SeparatingAxis.h:49-226", "geomc/shape/Oriented.h:197-199", "geomc/linalg/AffineTransform.h:216-249"]}
{"id": "C132", "title": "The rotation that aligns two directions, in floating point", "statement": "For float and double, direction_align of two unit directions: it is always defined; its matrix takes the first direction to the second and the inverse it holds takes the second back, the matrix is orthonormal and keeps orientation, all up to rounding; in particular for opposite directions it is a rotation, and for close directions it moves one to the other.", "quantifier": "All pairs of float directions whose squared lengths are within 8 units 2^-p of one; every binary precision of at least ten bits and rounding to nearest; no overflow or underflow.", "why_tests_cant": "The special case of opposite directions is chosen by an exact comparison with a rounded inner product, so which branch runs depends on the last bit; the quotient used elsewhere loses all its digits near the poles.", "anchors": ["geomc/linalg/AffineTransform.h:443-491", "geomc/linalg/AffineTransform.h:562-585", "geomc/linalg/AffineTransform.h:770-776", "geomc/linalg/vecdetail/Vec3.h:341-351"]}
{"id": "C133", "title": "Rotation matrices in floating point", "statement": "For float and double, the matrices that rotation() and rotmat() build from an axis and an angle, from a unit quaternion, and about a point: they are orthonormal up to rounding, keep the axis, keep the centre, carry every point close to where the rotation does, and the inverse held beside the matrix undoes it in either order.", "quantifier": "All axes and quaternions whose squared lengths, and all pairs of a sine and a cosine whose sum of squares, are within 8 units 2^-p of one; all centres and points; every binary precision of at least ten bits and rounding to nearest; no overflow or underflow. The bound for an element holds for any axis, quaternion, sine and cosine.", "why_tests_cant": "Each element is a sum of rounded products whose terms cancel for some axes and angles; how far the columns are from orthonormal, and how the error grows with the distance of the centre from the origin, depends on all of them at once.", "anchors": ["geomc/linalg/AffineTransform.h:340-353", "geomc/linalg/AffineTransform.h:363-390", "geomc/linalg/AffineTransform.h:590-635", "geomc/linalg/AffineTransform.h:393-427", "geomc/linalg/AffineTransform.h:661-667"]}
{"id": "C134", "title": "Legendre and Chebyshev polynomials in floating point", "statement": "For float and double, legendre(n, x), legendre_integral(n, x) and chebyshev(kind, n, x) are close to the exact values on the interval from -1 to 1, with an error that grows with the square of the degree at most; they are exact at both ends, and odd or even with the degree.", "quantifier": "All arguments between -1 and 1, all degrees for which the stated bound is at most one, every binary precision of at least ten bits and rounding to nearest with any tie breaking; no underflow. Reflection needs a rounding that treats both signs alike.", "why_tests_cant": "The recurrences feed every rounding error into all later terms with factors near two, so a naive bound doubles with each degree; that the errors stay polynomial is a property of all degrees and arguments at once, and no table of values shows it.", "anchors": ["geomc/function/Basis.h:91-102", "geomc/function/Basis.h:113-125", "geomc/function/Basis.h:136-147"]}
{"id": "C135", "title": "Perlin noise in floating point", "statement": "For float and double, PerlinNoise evaluates to within a fixed number of rounding errors of the exact noise and of its exact gradient, in every number of dimensions; the noise is exactly zero at grid points, and the value returned along with the gradient is the noise to the last bit.", "quantifier": "All points, all numbers of dimensions and all tables of gradients, every binary precision of at least ten bits and rounding to nearest with any tie breaking; no underflow; the gradient in every number of dimensions but one, where it is undefined.", "why_tests_cant": "The fading curve cancels near the far side of a cell, its weights leave the unit interval there, and each axis passes its errors on to the next; a test compares a few points of a few seeds with a tolerance, and cannot show that no cell of any table is worse.", "anchors": ["geomc/function/PerlinNoise.h:81-111", "geomc/function/PerlinNoise.h:119-181", "geomc/function/PerlinNoise.h:217-232"]}
{"id": "C136", "title": "The forms of vector operators agree", "statement": "v * s and v *= s, v / s and v /= s, a + b and a += b, a.dot(b) and a.dot(x, y, ...) give the same results, whatever the type of the scalar, and also when an operand is the vector itself; nothing but the vector is changed.", "quantifier": "All vectors of every size, all memories; all scalars exact in the type of the elements; all roundings to nearest; whole elements of any number of bits with floating-point scalars at least as wide.", "why_tests_cant": "The forms differ in where the scalar is converted, where the result is rounded and in which operand is overwritten first; they agree on nearly all operands a test would use, and no test runs over all scalars and all ways for operands to be the same object.", "anchors": ["geomc/linalg/Vec.h:40-180", "geomc/linalg/vecdetail/VecBase.h:420-462", "geomc/linalg/vecdetail/VecBase.h:553-559", "geomc/linalg/vecdetail/Vec2.h:90-92", "geomc/linalg/vecdetail/Vec3.h:167-172", "geomc/linalg/vecdetail/Vec4.h:132-137"]}
{"id": "C137", "title": "Paths in floating point", "statement": "For float and double, Path::eval is defined for the same parameters as in exact arithmetic, passes exactly through every knot, and stays within a fixed number of rounding errors of the exact path between the knots and beyond both ends.", "quantifier": "All paths of any number of knots up to 2^p and dimensions, all floating-point parameters below 2^64 and above -1, every binary precision p of at least ten bits and rounding to nearest with any tie breaking; no underflow.", "why_tests_cant": "The weight of the blend is a polynomial that cancels near its far end, and the parameter is split into a knot and a fraction by conversions that round; a test samples a few parameters of a few paths with a tolerance.", "anchors": ["geomc/function/Path.h:62-82", "geomc/function/Path.h:91-93", "geomc/linalg/vecdetail/VecBase.h:667-674", "geomc/linalg/Ray.h:73-75"]}
{"id": "C138", "title": "Nearest points of rays and vectors of a given length in floating point", "statement": "For float and double, Ray::project, Ray::at_distance, fraction_on and with_length are defined for the same directions as in exact arithmetic and give the exact result up to a number of rounding errors linear in the dimension; the origin of a ray is its own nearest point, exactly, and a vector covers exactly the fraction 1 of itself.", "quantifier": "All rays and vectors of every dimension N with (1 + 2^-p)^(N+2) < 2, all points and lengths, every binary precision p and rounding to nearest with any tie breaking; no overflow or underflow.", "why_tests_cant": "The error depends on the angle between the vectors and on the ratio of their lengths, which a test samples at a few values with a tolerance.", "anchors": ["geomc/linalg/Ray.h:68-70", "geomc/linalg/Ray.h:81-83", "geomc/linalg/vecdetail/VecBase.h:640-657"]}
{"id": "C139", "title": "Automatic differentiation in floating point", "statement": "For float and double, a formula written with +, -, *, multiply_add, sum_of_products and scalar factors gives with duals the same value as with floats, to the last bit, and a derivative within a number of rounding errors, counted by the formula, of the true derivative; a single product or quotient of duals has a derivative accurate relative to itself, whatever cancels; a variable held constant has derivative zero exactly.", "quantifier": "All formulas of any size with floating-point constants, all floating-point values and derivatives of the variable, every binary precision p and rounding to nearest with any tie breaking; no overflow or underflow. Scalar minus dual is left out: C61 refutes it.", "why_tests_cant": "There is an unbounded number of formulas, and the error of a derivative depends on cancellation at the point where it is taken.", "anchors": ["geomc/function/functiondetail/DualFunctions.h:21-44", "geomc/function/functiondetail/DualFunctions.h:75-104", "geomc/function/functiondetail/DualFunctions.h:137-187", "geomc/function/functiondetail/DualFunctions.h:243-245", "geomc/function/functiondetail/UtilDetail.h:106-124"]}
{"id": "C140", "title": "Rasters sampled in floating point", "statement": "For a raster of floats or doubles, sample with linear interpolation is defined where it is in exact arithmetic, gives the exact value at grid points, and elsewhere is within 4 rounding errors per dimension, relative to the largest sample, of the exact interpolation at a grid coordinate within five rounding errors of the exact one; the ends of the domain map exactly to the ends of the grid; nearest sampling picks the nearest sample up to a rounding error of the coordinate.", "quantifier": "All rasters of every number of dimensions and extents below 2^p, all floating-point samples, edge behaviours and points not below the domain, every binary precision p and rounding to nearest with any tie breaking; one channel; no overflow or underflow.", "why_tests_cant": "Whether a point falls in the intended cell depends on the last bit of its grid coordinate, and the error of the blend accumulates over the dimensions; a test samples a few points with a tolerance.", "anchors": ["geomc/function/functiondetail/RasterDetail.h:89-111", "geomc/function/Raster.h:275-278", "geomc/function/Raster.h:431-433", "geomc/shape/Rect.h:901-903"]}
{"id": "C141", "title": "Support points in floating point, and overlaps of capsules, rectangles and extrusions", "statement": "For float and double, convex_support of a sphere, capsule or dilated shape gives a point such that no point of the shape is farther along the direction by more than a bound on the rounding errors, even where a capsule takes the wrong end; those of rectangles are exact and extrusions add no error to those of their base; spheres and dilated shapes give none for the zero direction. In two and three dimensions the overlap test applied to any two capsules, rectangles, extrusions of these or simplexes always gives an answer, reports an overlap where they overlap by more than rounding, and reports them apart only where they overlap by no more than rounding along some direction.", "quantifier": "All spheres, capsules, dilated shapes, rectangles, extrusions and simplexes with nonnegative radii; all directions; every number of dimensions (two and three for the overlap test); every binary precision p and rounding to nearest with any tie breaking, with (1+2^-p)^(N+2) < 2; no overflow or underflow.", "why_tests_cant": "The end of a capsule is chosen by the sign of a rounded product, and the overlap test is steered by every support point it asks for; a test tries a few directions and pairs of shapes.", "anchors": ["geomc/shape/Sphere.h:80-82", "geomc/shape/Capsule.h:76-80", "geomc/shape/Dilated.h:93-96", "geomc/shape/Rect.h:950-957", "geomc/shape/Extruded.h:150-165", "geomc/shape/Intersect.h:20-27", "geomc/shape/Intersect.h:102-109"]}
{"id": "C142", "title": "Overlaps of spheres, dilated shapes, extrusions and frustums, in floating point", "statement": "For float and double, in two and three dimensions, the overlap test applied to any two spheres, dilated shapes, extrusions, frustums, capsules, rectangles or simplexes, nested to any depth, always gives an answer, reports an overlap where they overlap by more than rounding, and reports them apart only where they overlap by no more than rounding along some direction. Extrusions and frustums give a support point for every direction, even if their base gives none for zero.", "quantifier": "All spheres, dilated shapes, extrusions and frustums of shapes with support points right up to a bound; all directions; every number of dimensions for the support points, two and three for the overlap test; every binary precision p and rounding to nearest with any tie breaking, with (1+2^-p)^(N+2) < 2; no overflow or underflow.", "why_tests_cant": "Whether the test asks for the support point of the zero direction depends on the exact equality of two computed points; and the errors of nested shapes add up over all of them. A test tries a few pairs.", "anchors": ["geomc/shape/Intersect.h:45-97", "geomc/shape/Sphere.h:80-82", "geomc/shape/Dilated.h:93-96", "geomc/shape/Extruded.h:150-165", "geomc/shape/Frustum.h:200-219"]}
{"id": "C143", "title": "Support points of cylinders in floating point", "statement": "For float and double, convex_support of a cylinder gives a point such that no point of the cylinder is farther along the direction by more than a bound on the rounding errors, for every direction which is not zero.", "quantifier": "All cylinders with distinct ends, the difference of which is exact, and nonnegative radius; all directions not near the axis, the bound growing with the square of the ratio of the length of the direction to that of its part across the axis; every number of dimensions; every binary precision p and rounding to nearest with any tie breaking, with (1+2^-p)^(N+2) < 2; no overflow or underflow.", "why_tests_cant": "Near the axis the part across it is all rounding error, which is then scaled up to the radius; whether it is exactly zero, and which way it points, depends on the last bits of the ends and the direction. A test of round numbers sees none of it.", "anchors": ["geomc/shape/Cylinder.h:195-199", "geomc/linalg/vecdetail/VecBase.h:630-633"]}
{"id": "C144", "title": "Support points, bounds and overlaps of transformed shapes in floating point", "statement": "For float and double, convex_support of a shape placed by an affine transform gives a point such that no point of the placed shape is farther along the direction by more than a bound on the rounding errors, if that of the shape does; the bounds of the placed shape contain it up to rounding; and in two and three dimensions the overlap test of oriented rectangles always gives an answer, reports an overlap where they overlap by more than rounding, and reports them apart only where they overlap by no more than rounding along some direction.", "quantifier": "All affine transforms, invertible or not; all shapes with support points right up to a bound, those of C141 and C142 among them; all directions; every number of dimensions (two and three for the overlap test); every binary precision p and rounding to nearest with any tie breaking; no overflow or underflow.", "why_tests_cant": "The rounded direction in the coordinates of the shape may select another corner; the errors of the shape, of the direction and of the moved point add up. A test tries a few transforms and directions.", "anchors": ["geomc/shape/Oriented.h:75-99", "geomc/shape/Oriented.h:173-180", "geomc/linalg/AffineTransform.h:276-285", "geomc/linalg/AffineTransform.h:216-220"]}
{"id": "C145", "title": "Bounds of placed boxes and points in them, in floating point", "statement": "For float and double, up to thirty dimensions, the bounds of a box placed by an affine transform contain every point of the box as the transform moves it in floating point, with no allowance for rounding, and are the smallest such box; they are the same numbers as the bounds found from support points; they contain the exact image up to a bound on the rounding errors. A point is reported to be in the placed box where its exact preimage is in the box by more than a bound on the rounding errors, and only where it is in the box up to that bound. A point of the box moved into the world is in the placed box; the bounds of a placed empty box are empty.", "quantifier": "All boxes, flat ones included; all affine transforms, invertible or not; all points of the box, not only those with floating-point coordinates; every number of dimensions (up to thirty for the bounds); every binary precision p and rounding to nearest with any tie breaking; no overflow or underflow.", "why_tests_cant": "That the extreme points remain the corners after rounding rests on the monotonicity of rounding, for all transforms and all points of the box; a test tries a few points.", "anchors": ["geomc/shape/Oriented.h:147-166", "geomc/shape/Oriented.h:81-99", "geomc/shape/Oriented.h:186-189", "geomc/linalg/AffineTransform.h:216-220", "geomc/linalg/AffineTransform.h:254-258"]}
{"id": "C146", "title": "Points in frustums and bounds of frustums, in floating point", "statement": "For float and double, the containment test of a frustum compares the height of the point without error and asks the base about its projection with one rounding error in each coordinate; over a box every point of the frustum is reported to be in it, rounding notwithstanding, and a reported point is in the frustum over the box widened by one rounding error. The bounds of a frustum contain every point of it that has floating-point coordinates, with no allowance for rounding, and each face is within one rounding error of that of the smallest box. A point outside of the frustum is not reported to be in it.", "quantifier": "All bases (all boxes of floating-point numbers for the exact statement); all ranges of heights, below, above and across the tip; all points, not only those with floating-point coordinates; every number of dimensions; every binary precision p and rounding to nearest with any tie breaking; no overflow or underflow.", "why_tests_cant": "That no point of the frustum is lost by the rounded division, on a face least of all, rests on the monotonicity of rounding for all points and boxes; a test tries a few points.", "anchors": ["geomc/shape/Frustum.h:88-93", "geomc/shape/Frustum.h:221-232", "geomc/shape/Rect.h:482-490"]}
{"id": "C147", "title": "Distances to extruded and dilated shapes in floating point", "statement": "For float and double, the signed distance to an extruded shape is within a bound on the rounding errors of the exact one, if the distance to the base is: (1+e)^2 times the error in the base, and (1+e)^3-1 relative to the distance itself or that to the nearer cap plane. It is negative exactly strictly between the caps where the computed distance to the base is negative, and positive exactly beyond the caps or where that distance is positive. The signed distance to a dilated shape has the error of the shape and one rounding; a point is reported to be in the dilated shape exactly if the computed distance to the shape is less than the dilation.", "quantifier": "All bases and shapes with distances right up to a bound; all points, all heights and dilations; every number of dimensions; every binary precision p and rounding to nearest with any tie breaking; no overflow or underflow.", "why_tests_cant": "Near the boundary of the base the error decides which formula is used; that the two agree up to the error there, and that no sign is lost by squares, sums and roots, is a matter of all numbers. A test tries a few points.", "anchors": ["geomc/shape/Extruded.h:72-92", "geomc/shape/Dilated.h:79-86"]}
{"id": "C148", "title": "Composed and inverted transforms in floating point", "statement": "For float and double, the matrix of a product or quotient of affine transforms is within a bound on the rounding errors of the exact one, and the inverse that is kept beside it remains an inverse up to a bound that follows from those of the factors and rounding. A point moved by a transform and moved back by the same transform is where it was, up to the error of the kept inverse and rounding. It is exactly where it was.", "quantifier": "All transforms, with any matrices, bounded row by row; all points; every number of dimensions; every binary precision p and rounding to nearest with any tie breaking; no overflow or underflow.", "why_tests_cant": "The matrix and the inverse are rounded separately and drift apart with every product; how far is a bound over all transforms, which no number of products of sample transforms gives.", "anchors": ["geomc/linalg/AffineTransform.h:134-151", "geomc/linalg/AffineTransform.h:291-308", "geomc/linalg/AffineTransform.h:216-220", "geomc/linalg/AffineTransform.h:254-258"]}
{"id": "C149", "title": "Rays moved by transforms in floating point", "statement": "For float and double, a point of a ray moved by an affine transform, or moved back by it, is within a bound on the rounding errors of the exactly moved point of the ray, and within twice such a bound of the point of the ray moved in floating point. The two are the same numbers.", "quantifier": "All transforms, rays and parameters; every number of dimensions; every binary precision p and rounding to nearest with any tie breaking; no overflow or underflow.", "why_tests_cant": "The tests of placed shapes move the ray into the coordinates of the shape and report a parameter; that it serves for the ray in the world rests on a bound over all transforms, rays and parameters.", "anchors": ["geomc/linalg/AffineTransform.h:104-113", "geomc/linalg/AffineTransform.h:216-233", "geomc/linalg/Ray.h:73-75"]}
{"id": "C150", "title": "Projection to extruded shapes in floating point", "statement": "For float and double, the projection of a point to an extruded shape is one of three points: the point of the wall beside it, or the point on the lower or the upper cap. Its squared distance is at most that of each of the three times a factor of rounding errors. Over a base whose test and projection are right at the point, the projection is on the surface, and no point of the surface is nearer up to that factor.", "quantifier": "All bases, heights and points; every number of dimensions; every binary precision p and rounding to nearest with any tie breaking; no overflow or underflow.", "why_tests_cant": "The code picks the cap and then the wall or the cap by comparing rounded distances. That a wrong pick never costs more than the rounding errors rests on a bound over all points.", "anchors": ["geomc/shape/Extruded.h:131-148", "geomc/linalg/vecdetail/VecBase.h:596-598"]}
{"id": "C151", "title": "Normals of spheres and projection to dilated shapes in floating point", "statement": "For float and double, each coordinate of the normal of a sphere is that of the exact direction from the centre times a factor near one, so of the same sign and zero with it. The projection to a dilated shape is the projection to the shape moved by the dilation, away from the point if the shape contains it and towards it if not, with each coordinate within a bound on the rounding errors. Where the direction has length zero there is no result.", "quantifier": "All spheres, shapes, dilations and points; every number of dimensions; every binary precision p and rounding to nearest with any tie breaking; no overflow or underflow.", "why_tests_cant": "The direction is a quotient by a rounded length of rounded differences. That no coordinate of it loses relative accuracy, however near the centre, rests on a bound over all points.", "anchors": ["geomc/shape/Sphere.h:97-99", "geomc/shape/Dilated.h:103-113", "geomc/linalg/vecdetail/VecBase.h:538-545"]}
