{"id": "C01", "title": "Compile-time tag-sequence algebra is a correct finite-set/permutation algebra", "statement": "For tag packs: removing tags yields exactly the tags of the first pack not in the second, in the first pack's order; merging yields the first pack followed by exactly the missing tags of the second; replacing rewrites exactly the matching positions; rank is the position of the tag; contains/same/unique decide subset, mutual inclusion and absence of duplicates.", "quantifier": "all finite sequences of tags over any tag universe, any length, with or without repetitions", "why_tests_cant": "Unit tests instantiate a handful of packs of length at most 4; every combination of lengths, overlaps and orders must be right because every domain/element operation is resolved through these metafunctions.", "anchors": ["src/ddc/detail/type_seq.hpp: TypeSeqRank, TypeSeqRemove, TypeSeqMerge, TypeSeqReplaceSingle, TypeSeqReplace, type_seq_same, type_seq_contains, type_seq_is_unique"]}
{"id": "C02", "title": "DiscreteElement/DiscreteVector conversions and equality do not depend on tag order", "statement": "Constructing an element (vector) from others, selecting or permuting tags keeps the value of every tag: get<T>(select<...>(e)) = get<T>(e); equality compares values tag by tag, is an equivalence relation, is invariant under permuting the tags of either side, and conversion to a permuted tag order and back is the identity.", "quantifier": "all tag packs without duplicates, all permutations/sub-packs of them, all 64-bit values", "why_tests_cant": "The number of permutations and splits is unbounded in the rank; tests check two or three orders with distinguished values.", "anchors": ["src/ddc/discrete_element.hpp: DiscreteElement ctor (195-199), select, take, operator==", "src/ddc/discrete_vector.hpp: DiscreteVector ctor (303-307), select, take, operator=="]}
{"id": "C03", "title": "Element/vector arithmetic is an exact torsor action modulo 2^64", "statement": "(e + v) - e = v, (e + v) - v = e, a + (b - a) = b, (e + v) + w = (e + w) + v, ++/-- are +1/-1 and inverse of each other, and a vector over a subset of the tags moves only those tags; when the mathematical result is representable the stored index is that result.", "quantifier": "all 64-bit indices and displacements, including those that wrap around, and all tag packs", "why_tests_cant": "2^128 operand pairs per dimension; wraparound and negative displacements converted to unsigned are exactly what small tests skip.", "anchors": ["src/ddc/discrete_element.hpp: operator++/--, operator+=, operator-=, operator+, operator- (249-309, 379-434)"]}
{"id": "C04", "title": "DiscreteVector arithmetic is componentwise, with undefined behaviour exactly on signed overflow", "statement": "Sum, difference, negation, scalar product act tag by tag (a binary operation between packs where one is a sub-pack treats missing tags as 0), satisfy the abelian-group laws whenever no component overflows, and are undefined exactly when the mathematical result of some component is outside [-2^63, 2^63).", "quantifier": "all pairs of vectors over all tag packs and all ptrdiff_t values", "why_tests_cant": "Overflow boundaries and arbitrary tag sub-packs cannot be enumerated; UB can not be observed by a passing test.", "anchors": ["src/ddc/discrete_vector.hpp: operator+, operator-, operator*, get_or, select_or, operator+=, operator-=, operator*= (60-187, 381-449)"]}
{"id": "C05", "title": "DiscreteDomain is exactly a Cartesian product of half-open index ranges", "statement": "For a domain built from (front, extents) that do not overflow: contains(e) holds iff for every tag front <= e < front + extent; extents() returns the extents given; size() is the product of extents (number of members); empty() iff no member; front() and back() are members and bound every member.", "quantifier": "all ranks, all fronts and extents whose end does not exceed 2^64 and whose total size is below 2^64", "why_tests_cant": "Must hold for every rank and every 64-bit bound; off-by-one mistakes at the end of the range or near 2^64 are not covered by fixed-size tests.", "anchors": ["src/ddc/discrete_domain.hpp: DiscreteDomain ctor (105-111), size, extents, extent, front, back, contains, empty (141-166, 222-260)"]}
{"id": "C06", "title": "take/remove first/last split a domain into disjoint covering pieces", "statement": "take_first(n) and remove_first(n) have disjoint point sets whose union is the domain, same for take_last/remove_last, and remove(n1,n2) keeps exactly the points not in take_first(n1) or take_last(n2), along every dimension separately; sizes add up.", "quantifier": "all domains (contiguous, strided), all n componentwise between 0 and the extent, all ranks", "why_tests_cant": "The partition identity is quantified over all sizes and split points; tests sample one split of one domain.", "anchors": ["src/ddc/discrete_domain.hpp: take_first, take_last, remove_first, remove_last, remove (168-193)", "src/ddc/strided_discrete_domain.hpp: take_first .. remove (189-214)"]}
{"id": "C07", "title": "Positions and elements of a domain are in bijection", "statement": "domain.distance_from_front(domain(v)) = v for every displacement v inside the extents, and domain(domain.distance_from_front(e)) = e for every contained e; domain(0) is front and domain(extents-1) is back. Holds for contiguous, strided and sparse domains.", "quantifier": "all domains of all ranks, all in-range displacements, all contained elements", "why_tests_cant": "A bijection over every domain shape is a universally quantified statement on 64-bit values.", "anchors": ["src/ddc/discrete_domain.hpp: operator() (195), distance_from_front (239-250)", "src/ddc/strided_discrete_domain.hpp: operator() (216-220), distance_from_front (248-261)", "src/ddc/sparse_discrete_domain.hpp: operator() (266-270), distance_from_front (292-308)"]}
{"id": "C08", "title": "Domain equality coincides with equality of the sets of points", "statement": "For DiscreteDomain over the same tags (in any order), a == b iff exactly the same elements are contained in a and b (so all empty domains are equal); equality is an equivalence relation. For strided and sparse domains, a == b implies the same points and, for strided domains with extents >= 2 or sparse domains with sorted lists, conversely.", "quantifier": "all pairs of valid domains of the same tag set", "why_tests_cant": "Set equality quantifies over 2^64 elements per dimension and over all domain pairs.", "anchors": ["src/ddc/discrete_domain.hpp: operator== (123-130)", "src/ddc/strided_discrete_domain.hpp: operator== (137-145)", "src/ddc/sparse_discrete_domain.hpp: operator== (175-197)"]}
{"id": "C09", "title": "restrict_with is set intersection with the other domain in the shared dimensions", "statement": "When the restricting domain lies inside the domain in the shared dimensions, restrict_with returns a domain whose points are exactly those of the domain whose shared coordinates belong to the restricting domain; other dimensions are unchanged; it is idempotent and restricting with itself is the identity.", "quantifier": "all domains, all restricting domains over any sub-pack of tags", "why_tests_cant": "Depends on all bounds and all tag sub-packs.", "anchors": ["src/ddc/discrete_domain.hpp: restrict_with (201-220)"]}
{"id": "C10", "title": "Products, projections and dimension replacement of domains commute with membership", "statement": "A merged domain contains e iff each factor contains the projection of e; select keeps membership per tag; remove_dims_of drops exactly the given dimensions; replace_dim_of replaces exactly one factor; the product of the projection and the removed part is the original domain.", "quantifier": "all domain packs, all tag subsets", "why_tests_cant": "All ranks, tag orders and subsets.", "anchors": ["src/ddc/discrete_domain.hpp: merge ctor (93-99), select (449-467), remove_dims_of (474-498), replace_dim_of (506-543)"]}
{"id": "C11", "title": "Random-access iterators of 1D domains enumerate the domain in order", "statement": "Iterating from begin() to end() visits each element exactly once in increasing order; begin()[n] = domain[n] = domain(n); (it + n) - it = n; end() - begin() = size(); comparisons agree with the sign of the difference.", "quantifier": "all 1D contiguous, strided and sparse domains; all offsets inside the domain", "why_tests_cant": "All sizes/strides; a generic algorithm relying on end()-begin() breaks only for strides other than the tested one.", "anchors": ["src/ddc/discrete_domain.hpp: DiscreteDomainIterator (573-722), begin/end/[] (262-296)", "src/ddc/strided_discrete_domain.hpp: StridedDiscreteDomainIterator (577-731), begin/end (273-301)"]}
{"id": "C12", "title": "host for_each visits every point exactly once in lexicographic order", "statement": "ddc::host_for_each / device_for_each calls the functor exactly once per contained element and on no other element, in row-major (last dimension fastest) order, for contiguous, strided and sparse supports of any rank, rank 0 being called once.", "quantifier": "all domains of all ranks and extents (including empty ones)", "why_tests_cant": "Nested loops generated recursively per rank: must be right at every rank/extents combination.", "anchors": ["src/ddc/for_each.hpp: device_for_each_serial, host_for_each (19-63)"]}
{"id": "C13", "title": "StridedDiscreteDomain membership equals enumeration", "statement": "A strided domain contains e iff e = front + k*stride for some k in [0, extent) in every dimension; size is the product of extents, front/back are the first/last enumerated points; the empty strided domain contains nothing.", "quantifier": "all strides >= 1, extents, fronts with no overflow, all ranks, all candidate elements", "why_tests_cant": "All triples front/extent/stride and all 2^64 candidates, including empty extents.", "anchors": ["src/ddc/strided_discrete_domain.hpp: contains (222-246), size, back, empty, distance_from_front"]}
{"id": "C14", "title": "SparseDiscreteDomain membership by binary search is exact", "statement": "For element lists sorted in strictly increasing order, contains(e) iff every coordinate occurs in the corresponding list; the search always terminates; distance_from_front returns the position of the coordinate in its list.", "quantifier": "all sorted lists of any length in each dimension, all candidate values", "why_tests_cant": "Binary search over all lengths and all candidate values; loops with wrong midpoint fail only at specific sizes.", "anchors": ["src/ddc/sparse_discrete_domain.hpp: detail::lower_bound (73-92), binary_search (94-99), contains (272-290), distance_from_front (292-308)"]}
{"id": "C15", "title": "Element access of a chunk is a bijection between its domain and its storage", "statement": "Two distinct elements of the support never share a storage cell, every access by an element of the domain stays inside the allocation, every cell of an exhaustive layout is hit; hence reading after writing returns the written value and leaves other elements unchanged, independent of the order in which tags are passed.", "quantifier": "all domains/ranks/extents, row-major and column-major layouts, all elements of the domain", "why_tests_cant": "Aliasing or out-of-bounds access is a for-all statement on pairs of elements and on every extents tuple.", "anchors": ["src/ddc/chunk.hpp: Chunk ctor (92-107), operator() (196-258)", "src/ddc/chunk_span.hpp: operator() (354-384), ctor (231-243)", "src/ddc/detail/kokkos.hpp: build_mdspan"]}
{"id": "C16", "title": "Slicing a chunk aliases exactly the selected sub-array", "statement": "span[e](f) and span(e,f) denote the same cell; span[subdomain](g) and span(g) denote the same cell for g in the subdomain; slicing by a displacement equals slicing by the element at that displacement; the resulting domain is the original without the sliced dimensions (resp. the subdomain); slices may be nested in any order with the same result.", "quantifier": "all spans of any rank and stride, all slicing tag subsets, all elements/sub-domains", "why_tests_cant": "The combination of tag subsets, nesting orders and strides is unbounded.", "anchors": ["src/ddc/chunk_span.hpp: get_slicer_for (102-130), submdspan (132-156), operator[] (272-352)"]}
{"id": "C17", "title": "Chunk ownership is linear: no leak, no double free, data survives moves", "statement": "In every history of constructing, moving, move-assigning, swapping and destroying chunks, each allocation is freed exactly once with the size it was allocated with, a live non-moved-from chunk always owns a live allocation that no other chunk owns, moving transfers the contents unchanged, and after all chunks are destroyed nothing stays allocated.", "quantifier": "all finite histories of chunk operations on any number of chunk objects and sizes", "why_tests_cant": "Histories are unbounded; leak/double free only shows on particular interleavings such as assigning into a live chunk or self-move.", "anchors": ["src/ddc/chunk.hpp: Chunk ctors, move ctor (112-122), dtor (124-129), move assignment (134-150)", "src/ddc/kokkos_allocator.hpp", "src/ddc/aligned_allocator.hpp"]}
{"id": "C18", "title": "Copies and mirrors have the contents of their source", "statement": "create_mirror(_view)_and_copy yields a chunk over the same domain with the same value at every element and never aliases the source, except that the view variants return the source itself when its memory is accessible from the requested space; parallel_deepcopy and parallel_copy make destination(e) = source(projection of e) for every element of the destination and leave everything else unchanged; the layout-right copy has the same value at each element.", "quantifier": "all domains, extents, layouts, all source contents; parallel_copy for every sub-pack of dimensions (broadcast)", "why_tests_cant": "All shapes, layouts and contents.", "anchors": ["src/ddc/create_mirror.hpp (28-161)", "src/ddc/parallel_deepcopy.hpp", "src/ddc/parallel_copy.hpp (25-107)", "src/ddc/detail/kokkos.hpp"]}
{"id": "C19", "title": "parallel_for_each runs the functor exactly once per element under every schedule", "statement": "Whatever order or interleaving of iterations the backend chooses, the multiset of elements passed to the functor is exactly the domain; if the functor for e writes only cells associated with e and reads only cells not written by others, the final memory is the one of the sequential host loop.", "quantifier": "all domains, all schedules (permutations of the iteration space), all independent functors", "why_tests_cant": "Schedules are factorially many; a test observes one.", "anchors": ["src/ddc/parallel_for_each.hpp (25-53)", "src/ddc/ddc_to_kokkos_execution_policy.hpp (16-44)", "src/ddc/parallel_transform.hpp (40-44)", "src/ddc/parallel_fill.hpp"]}
{"id": "C20", "title": "Block decomposition covers the domain exactly once with balanced blocks", "statement": "for_each_block with per-dimension block counts calls the functor on sub-domains that are pairwise disjoint, whose union is the domain, whose extents in each dimension differ by at most one; the version taking a total number of blocks chooses per-dimension counts whose product is the requested total, never exceeding the extents, or fails.", "quantifier": "all domains/ranks/extents, all block counts >= 1, all totals", "why_tests_cant": "All quotient/remainder combinations and all ranks.", "anchors": ["src/ddc/for_each_block.hpp: detail (37-57), total version (92-101)", "src/ddc/for_each_block.cpp: is_power_of_2, distribute_blocks (24-52), ComputeBlockFn (54-68)"]}
{"id": "C21", "title": "host_transform_reduce equals the mathematical reduction", "statement": "For an associative reduction with the given neutral element, the host transform_reduce returns the reduction over all elements of the domain (in iteration order up to commutativity), and returns neutral for an empty domain.", "quantifier": "all domains of all ranks, all transforms and all commutative monoids", "why_tests_cant": "Arbitrary monoids, ranks and sizes.", "anchors": ["src/ddc/transform_reduce.hpp (37-113)"]}
{"id": "C22", "title": "parallel_transform_reduce is independent of the schedule", "statement": "For each provided reducer, any partition of the domain among workers, any order inside workers and any tree joining the partial results yields the same value, equal to the sequential host reduction; the user-provided neutral is the starting value.", "quantifier": "all domains, all chunkings/trees/orders, all transforms, all reducers", "why_tests_cant": "Unbounded schedules/trees; tests see the one chosen at run time.", "anchors": ["src/ddc/parallel_transform_reduce.hpp (23-164)", "src/ddc/reducer.hpp"]}
{"id": "C23", "title": "parallel scans return prefix reductions for every chunking", "statement": "Inclusive (exclusive) scan writes at position i the reduction of the transformed elements 0..i (0..i-1 starting with init) for every chunking of the two-pass scan algorithm.", "quantifier": "all 1D domains, all chunkings of the iteration space, all monoids, all transforms", "why_tests_cant": "Two-pass parallel scans evaluate the functor twice with different flags; chunk boundaries vary with the run.", "anchors": ["src/ddc/parallel_transform_scan.hpp (70-143)"]}
{"id": "C24", "title": "Reducers form commutative monoids with the advertised neutral element", "statement": "sum, prod, land, lor, band, bor, min, max, (lxor/bxor) are associative, commutative and have neutral() as identity on their value sets.", "quantifier": "all values of the reduced type", "why_tests_cant": "Algebraic laws over the full value set.", "anchors": ["src/ddc/reducer.hpp"]}
{"id": "C25", "title": "Discrete spaces are initialised at most once per guard lifetime and released with it", "statement": "In every sequence of guard creation/destruction and init_discrete_space calls: a dimension's attributes are readable exactly between its successful initialisation and the end of the guard scope; a second initialisation fails with an exception without altering the attributes; at the end of the guard each initialised dimension is reset exactly once and can be initialised again under a new guard.", "quantifier": "all histories of guard construction/destruction and initialisations over any set of dimensions", "why_tests_cant": "Histories are unbounded and the failure only shows for particular orders (re-init, re-guard, nested guards).", "anchors": ["src/ddc/discrete_space.hpp: init_discrete_space, emplace_discrete_space, host_discrete_space (94-226)", "src/ddc/discrete_space.cpp", "src/ddc/scope_guard.cpp"]}
{"id": "C26", "title": "Uniform sampling places n equally spaced points from a to b", "statement": "After init(a, b, n): there are exactly n points, the first coordinate is a, the last is b, consecutive distances all equal step, coordinates are strictly increasing (a<b) and determine the element; distance_at_left/right equal step; rlength equals b-a.", "quantifier": "all a<b, n>=2, all elements of the domain", "why_tests_cant": "Real-valued parameters and arbitrary n.", "anchors": ["src/ddc/uniform_point_sampling.hpp: coordinate (124-128), init (140-150), rmin/rmax/rlength/step/distance_at_left/right"]}
{"id": "C27", "title": "Ghosted initialisation partitions the ghosted domain", "statement": "init_ghosted(a,b,n,g_left,g_right) returns (ghosted, left ghost, main, right ghost) domains such that left, main and right are disjoint, consecutive, and cover the ghosted domain with sizes g_left, n, g_right; the main domain's first/last coordinates are a and b; applies to uniform, non-uniform and periodic samplings.", "quantifier": "all n>=2, ghost counts >= 0, all a<b or all sorted point lists", "why_tests_cant": "All sizes; off-by-one of the reference element is only visible with ghosts.", "anchors": ["src/ddc/uniform_point_sampling.hpp: init_ghosted (163-218)", "src/ddc/non_uniform_point_sampling.hpp: init_ghosted (155-191)", "src/ddc/periodic_sampling.hpp: init_ghosted (187-220)"]}
{"id": "C28", "title": "Non-uniform sampling accepts exactly sorted point lists and keeps them", "statement": "Construction throws iff the points are not in increasing order; otherwise coordinate of the i-th element is the i-th point, so coordinates are monotone, distances at left/right are the consecutive differences and rmin/rmax/rlength are the extreme points.", "quantifier": "all finite lists of points", "why_tests_cant": "All lists/lengths.", "anchors": ["src/ddc/non_uniform_point_sampling.hpp: ctor (83-95), coordinate (126-130), init (138-147), distances (225-237)"]}
{"id": "C29", "title": "Periodic sampling wraps indices onto one period", "statement": "coordinate(i) depends only on i modulo the period, takes exactly n_period distinct equally spaced values origin + k*step with k in [-(n/2), n - n/2), and equals origin + i*step for the first half.", "quantifier": "all periods n >= 1 representable, all indices", "why_tests_cant": "All indices modulo all periods, odd/even.", "anchors": ["src/ddc/periodic_sampling.hpp: coordinate (138-146), init (159-173)"]}
{"id": "C30", "title": "Uniform B-spline basis evaluation equals the Cox-de Boor basis", "statement": "eval_basis at x returns, for the degree+1 B-splines that are non-zero on the cell of x, exactly the values defined by the Cox-de Boor recursion on the uniform knot sequence, with the index of the first of them; values are non-negative and sum to 1.", "quantifier": "all degrees, numbers of cells, all x in the domain (exact arithmetic)", "why_tests_cant": "All degrees and a continuum of evaluation points.", "anchors": ["src/ddc/kernels/splines/bsplines_uniform.hpp: eval_basis (394-426), get_icell_and_offset (568-595)"]}
{"id": "C31", "title": "Non-uniform B-spline basis evaluation equals the Cox-de Boor basis", "statement": "eval_basis on a strictly increasing break point sequence returns exactly the degree+1 Cox-de Boor values on the knot sequence; values are non-negative and sum to 1.", "quantifier": "all degrees, all strictly increasing break points, all x in the domain (exact arithmetic)", "why_tests_cant": "All degrees, meshes and evaluation points.", "anchors": ["src/ddc/kernels/splines/bsplines_non_uniform.hpp: eval_basis (461-497)"]}
{"id": "C32", "title": "B-spline derivative evaluation is the derivative of the basis", "statement": "eval_deriv returns the derivative with respect to x of each of the degree+1 polynomial pieces returned by eval_basis on that cell (uniform and non-uniform); derivatives sum to 0.", "quantifier": "all degrees >= 1, all knots, all x", "why_tests_cant": "An identity between polynomials of every degree.", "anchors": ["src/ddc/kernels/splines/bsplines_uniform.hpp: eval_deriv (430-471)", "src/ddc/kernels/splines/bsplines_non_uniform.hpp: eval_deriv (501-557)"]}
{"id": "C33", "title": "eval_basis_and_n_derivs returns all requested derivatives", "statement": "Row k of the result is the k-th derivative of each non-vanishing B-spline at x for every k up to n; row 0 agrees with eval_basis and row 1 with eval_deriv.", "quantifier": "all degrees, all n <= degree, all x", "why_tests_cant": "All degrees/orders; index bounds of the A2.3 algorithm fail only at specific combinations.", "anchors": ["src/ddc/kernels/splines/bsplines_uniform.hpp: eval_basis_and_n_derivs (475-564)", "src/ddc/kernels/splines/bsplines_non_uniform.hpp: eval_basis_and_n_derivs (561-664)"]}
{"id": "C34", "title": "Cell search terminates and returns the cell containing the point", "statement": "Uniform: icell in [0,ncells) and x = rmin + (icell+offset)*dx with 0 <= offset <= 1 (offset<1 unless x = rmax). Non-uniform: the binary search terminates and returns a cell with t_i <= x < t_{i+1} (last cell for x >= rmax, first for x <= rmin).", "quantifier": "all meshes, all x inside or outside of the domain", "why_tests_cant": "Every mesh size and point; a wrong midpoint update may loop forever on rare inputs.", "anchors": ["src/ddc/kernels/splines/bsplines_uniform.hpp: get_icell_and_offset (568-595)", "src/ddc/kernels/splines/bsplines_non_uniform.hpp: find_cell_start (668-695)"]}
{"id": "C35", "title": "Knot sequences are periodic (resp. clamped) extensions of the break points", "statement": "Periodic: knot(j + ncells) = knot(j) + period for every ghost knot, for every degree (even degree > ncells); non-uniform and not periodic: the first and last degree+1 knots equal rmin and rmax; uniform: all the knots, also the outer ones, are equally spaced; inner knots are the break points; knots are non-decreasing.", "quantifier": "all degrees, all break point lists with at least 2 points", "why_tests_cant": "In-place loops filling ghost knots depend on the order of iteration when degree exceeds the number of cells.", "anchors": ["src/ddc/kernels/splines/bsplines_non_uniform.hpp: Impl ctor (417-457)", "src/ddc/kernels/splines/bsplines_uniform.hpp: Impl ctor (135-148)"]}
{"id": "C36", "title": "B-spline integrals sum to the length of the domain", "statement": "integrals() returns for each basis function its integral over the domain; they sum to rmax - rmin, the repeated periodic ones are 0.", "quantifier": "all degrees, meshes, periodic or not", "why_tests_cant": "All degrees/meshes; edge corrections interact when ncells is small.", "anchors": ["src/ddc/kernels/splines/integrals.hpp: uniform_bsplines_integrals (31-101), non_uniform_bsplines_integrals (111-153)"]}
{"id": "C37", "title": "Interpolation point generators return as many increasing points as unknowns", "statement": "Greville/knot interpolation meshes have exactly nbasis minus the number of boundary equations points, strictly increasing, lying in the domain.", "quantifier": "all degrees, all meshes, all closure combinations", "why_tests_cant": "All degree/cell-count/closure combinations.", "anchors": ["src/ddc/kernels/splines/greville_interpolation_points.hpp (46-295)", "src/ddc/kernels/splines/knots_as_interpolation_points.hpp"]}
{"id": "C38", "title": "Packed matrix storages represent the matrix that was written", "statement": "For dense, general band, symmetric band, symmetric tridiagonal and 2x2/3x3 block storages: get_element after set_element returns the value written at that position (and its mirror for symmetric ones), all other represented entries are unchanged, positions outside the band read 0, and no access leaves the allocated storage.", "quantifier": "all sizes, bandwidths, positions and histories of writes", "why_tests_cant": "Index formulas over all (n, kl, ku, i, j).", "anchors": ["src/ddc/kernels/splines/splines_linear_problem_band.cpp (55-106)", "src/ddc/kernels/splines/splines_linear_problem_pds_band.cpp (46-81)", "src/ddc/kernels/splines/splines_linear_problem_pds_tridiag.cpp (43-78)", "src/ddc/kernels/splines/splines_linear_problem_dense.cpp", "src/ddc/kernels/splines/splines_linear_problem_2x2_blocks.cpp (102-144)", "src/ddc/kernels/splines/splines_linear_problem_3x3_blocks.cpp (32-64)"]}
{"id": "C39", "title": "Block elimination solves the full system, plain and transposed", "statement": "With exact sub-solvers, the 2x2-block and 3x3-block solvers overwrite the right-hand sides by the solution of M x = b (resp. M^T x = b) for the matrix M described by get_element, for any number of right-hand sides.", "quantifier": "all block sizes, all invertible matrices with invertible leading block, all right-hand sides", "why_tests_cant": "A linear-algebra identity for all sizes/matrices; the in-place row interchange with overlapping ranges only fails for particular block sizes.", "anchors": ["src/ddc/kernels/splines/splines_linear_problem_2x2_blocks.cpp (148-298)", "src/ddc/kernels/splines/splines_linear_problem_3x3_blocks.cpp (32-150)"]}
{"id": "C40", "title": "Right-hand sides are processed exactly once by the chunked sparse solver", "statement": "The column chunks used by the sparse solver are disjoint, cover all right-hand-side columns and never exceed the chunk capacity.", "quantifier": "all numbers of columns >= 1 and chunk sizes >= 1", "why_tests_cant": "All (ncols, chunk) combinations; the last partial chunk is the corner case.", "anchors": ["src/ddc/kernels/splines/splines_linear_problem_sparse.cpp (226-279)"]}
{"id": "C41", "title": "Spline interpolation reproduces the data", "statement": "If the linear system is solved exactly, the spline whose coefficients SplineBuilder computes takes the given values at the interpolation points and has the given boundary derivatives for Hermite closures (zero for homogeneous), for periodic, Greville and Hermite closures and any batch.", "quantifier": "all degrees, meshes, closures, data and batch sizes for which the builder's preconditions hold", "why_tests_cant": "End-to-end for every mesh/degree/closure; index offset bugs are masked by smooth data and tolerance.", "anchors": ["src/ddc/kernels/splines/spline_builder.hpp: compute_offset (634-658), build_matrix_system (791-886), operator() (905-1101)"]}
{"id": "C42", "title": "Periodic spline coefficients are periodic and evaluation is periodic", "statement": "For a periodic dimension the stored coefficients satisfy c(nbasis+i) = c(i) for i < degree, and the evaluated spline satisfies s(x + L) = s(x) for every x.", "quantifier": "all degrees, meshes, coefficients, all x and integer numbers of periods", "why_tests_cant": "Continuum of x and all sizes.", "anchors": ["src/ddc/kernels/splines/spline_builder.hpp (1074-1100)", "src/ddc/kernels/splines/spline_evaluator.hpp: eval (530-554)"]}
{"id": "C43", "title": "Quadrature coefficients integrate the interpolating spline exactly", "statement": "For every data vector (values and boundary derivatives), the weighted sum with quadrature_coefficients equals the integral of the interpolating spline.", "quantifier": "all degrees, closures, meshes, data", "why_tests_cant": "Requires the transposed solve and slices to be right for all sizes/closures.", "anchors": ["src/ddc/kernels/splines/spline_builder.hpp: quadrature_coefficients (1112-1234)", "src/ddc/kernels/splines/spline_evaluator.hpp: integrate (494-526)"]}
{"id": "C44", "title": "Spline evaluation outside the domain follows the extrapolation rule", "statement": "Inside the closed domain the B-spline expansion is returned; outside a non-periodic domain the lower/upper rule alone decides: null gives 0, constant gives the value at the boundary point; periodic dimensions never extrapolate; the basis is only evaluated inside its domain.", "quantifier": "all x, all rules, all coefficients; 1D, 2D, 3D and ND evaluators", "why_tests_cant": "All points/corners; corner regions in 2D/3D need the right priority of rules.", "anchors": ["src/ddc/kernels/splines/spline_evaluator.hpp: eval (530-554)", "src/ddc/kernels/splines/spline_evaluator_2d.hpp: eval (679-730)", "src/ddc/kernels/splines/spline_evaluator_3d.hpp", "src/ddc/kernels/splines/spline_evaluator_nd.hpp: update_coord_eval, check_needs_extrapolation, eval (639-721)", "src/ddc/kernels/splines/constant_extrapolation_rule.hpp", "src/ddc/kernels/splines/null_extrapolation_rule.hpp", "src/ddc/kernels/splines/periodic_extrapolation_rule.hpp"]}
{"id": "C45", "title": "Multi-dimensional evaluation is the tensor-product sum", "statement": "The 2D/3D/ND evaluators return sum over all (i1,..,id) of c(j1+i1,..,jd+id) * prod_k B_k(i_k), with derivative basis values in the dimensions where a derivative is requested; the ND evaluator with one/two/three dimensions agrees with the 1D/2D/3D ones.", "quantifier": "all ranks, degrees, coefficients, points, derivative requests", "why_tests_cant": "All ranks and degrees.", "anchors": ["src/ddc/kernels/splines/spline_evaluator_2d.hpp: eval_no_bc (741-825)", "src/ddc/kernels/splines/spline_evaluator_3d.hpp: eval_no_bc (901-1019)", "src/ddc/kernels/splines/spline_evaluator_nd.hpp: for_each, eval_no_bc (758-824)"]}
{"id": "C46", "title": "2D/3D builders interpolate tensor-product data", "statement": "The spline built by SplineBuilder2D/3D takes the given value at every interpolation point and the given (mixed) derivatives at Hermite boundaries; only the boundary data required by the chosen closures is accessed.", "quantifier": "all degrees/meshes/closures combinations in each dimension, all data", "why_tests_cant": "Many closure combinations (4^2 per dimension pair) times all sizes.", "anchors": ["src/ddc/kernels/splines/spline_builder_2d.hpp: operator() (539-651)", "src/ddc/kernels/splines/spline_builder_3d.hpp: operator()"]}
{"id": "C47", "title": "Grid validation accepts exactly well-constrained interpolation grids", "statement": "The builder's constructor throws for interpolation grids with the wrong number of points and for those in which some closed cell holds more points than a polynomial of the degree can interpolate (degree + 1), and accepts the others.", "quantifier": "all break points, all interpolation point lists", "why_tests_cant": "All point/cell distributions.", "anchors": ["src/ddc/kernels/splines/spline_builder.hpp: check_n_points_in_cell (1253-1263), check_valid_grid (1280-1317)"]}
{"id": "C48", "title": "Derivative-data domains handed out by the builder are the ones it accepts", "statement": "For every degree and Hermite closure, chunks allocated on batched_derivs_xmin_domain/batched_derivs_xmax_domain can be passed back to the builder: its first derivative order and extents are those the builder reads.", "quantifier": "all degrees, all closures", "why_tests_cant": "Parity of the degree decides; tests use a helper domain.", "anchors": ["src/ddc/kernels/splines/spline_builder.hpp: batched_derivs_xmin_domain, batched_derivs_xmax_domain (487-517), operator() (905-1101)"]}
{"id": "C49", "title": "FFT meshes and normalisations make ifft inverse of fft", "statement": "The Fourier mesh has as many modes as points (last dimension n/2+1 for real transforms) with wave numbers 2*pi*k/(n dx) folded to [-n/2, n/2); composing fft and ifft with the same normalisation mode multiplies by 1 for FORWARD, BACKWARD, ORTHO and FULL and by N for OFF.", "quantifier": "all ranks, sizes, data, normalisation modes", "why_tests_cant": "All sizes/normalisations and arbitrary data.", "anchors": ["src/ddc/kernels/fft.hpp: forward_full_norm_coef, backward_full_norm_coef, impl, init_fourier_space, fourier_mesh", "src/ddc/kernels/fft.cpp"]}
{"id": "C50", "title": "Saved .npy files decode to the chunk that was saved", "statement": "The bytes written start with a valid version-1.0 header whose total length is a multiple of 16, whose length field is exact and whose dictionary decodes to the dtype, order and shape of the chunk, followed by exactly the elements in C order; saving fails with an exception iff the header cannot be represented.", "quantifier": "all shapes, ranks, item sizes, contents", "why_tests_cant": "All shapes/ranks; padding and header length field depend on decimal lengths.", "anchors": ["src/ddc/save_npy.cpp: write_le, NpyDtype::str, save_npy (20-107)", "src/ddc/save_npy.hpp: to_np_array_view"]}
{"id": "C51", "title": "Printing elides only the middle of long dimensions", "statement": "print_content prints every element of dimensions shorter than the threshold and exactly the first and last edgeitems otherwise, in order, and never touches out-of-range elements; options violating edgeitems < threshold/2 are rejected and leave the options unchanged, so the invariant holds after every history of option changes.", "quantifier": "all shapes and ranks, all option histories, all contents", "why_tests_cant": "All shapes and option sequences.", "anchors": ["src/ddc/print.hpp: print_impl, find_largest_displayed_element, recursive_display, base_case_display", "src/ddc/print.cpp: set_print_options"]}
{"id": "C52", "title": "Every datum shared with PDI is reclaimed exactly once after the event", "statement": "A PdiEvent triggers its event exactly once, after all shares, and then reclaims every shared name exactly once; read-only arithmetic data is shared through a copy that outlives the event.", "quantifier": "all sequences of with() calls", "why_tests_cant": "All sequences of shares.", "anchors": ["src/ddc/pdi.hpp: PdiEvent::with", "src/ddc/pdi.cpp: store_name, ~PdiEvent"]}
{"id": "C53", "title": "Coordinates (TaggedVector) obey tag-wise vector algebra", "statement": "Coordinate arithmetic, construction from sub-coordinates, select and equality act tag by tag independent of tag order, and coordinate(DiscreteElement over several dimensions) is the tuple of the 1D coordinates.", "quantifier": "all tag packs and values", "why_tests_cant": "All ranks/orders.", "anchors": ["src/ddc/detail/tagged_vector.hpp", "src/ddc/coordinate.hpp"]}
{"id": "C54", "title": "The linear problem factory returns storages that can hold the requested pattern", "statement": "make_new_band, make_new_block_matrix_with_band_main_block and make_new_periodic_band_matrix return a zero matrix of the requested size in which every position of the requested pattern (band, blocks around a band, band that wraps around) can be written, and in which two positions share one value only for symmetric matrices.", "quantifier": "all sizes, bandwidths, block sizes and symmetry flags", "why_tests_cant": "The choice between dense, band, symmetric and block storages depends on inequalities between sizes and bandwidths; tests use a few sizes far below the limits of int.", "anchors": ["src/ddc/kernels/splines/splines_linear_problem_maker.hpp (56-146)"]}
{"id": "C55", "title": "The evaluators' integrate computes the exact integral of the spline", "statement": "For every set of coefficients, SplineEvaluator/2D/3D/ND::integrate writes for each element of the batch domain the exact (iterated) integral over the whole domain of the spline with these coefficients, whatever the order of the iterations of the parallel loops; in periodic dimensions this holds for periodic coefficients, stored on the domain of the basis or on the full domain.", "quantifier": "all degrees, knots, numbers of dimensions, coefficients, batch sizes and schedules", "why_tests_cant": "Tests integrate a few polynomials with one mesh; the claim is about all splines and all schedules.", "anchors": ["src/ddc/kernels/splines/spline_evaluator.hpp (494-526)", "src/ddc/kernels/splines/spline_evaluator_2d.hpp (616-660)", "src/ddc/kernels/splines/spline_evaluator_3d.hpp (742-797)", "src/ddc/kernels/splines/spline_evaluator_nd.hpp (597-635)", "src/ddc/kernels/splines/integrals.hpp"]}
{"id": "C56", "title": "cexa::tuple behaves as an ordered list of its components", "statement": "Whatever the component types and their number: get<I> returns (and writes through) exactly component I and does not compile beyond the size; get<T> returns the first component of type T; assignment, swap, apply and make_from_tuple act on all components in order; <=>, < and == are the lexicographic comparison (host and nvcc versions agree); tuple_cat returns the components of all arguments in order and does not change arguments passed as lvalues; SplineEvaluatorND splits its rules into the lower ones and the upper ones of each dimension.", "quantifier": "all component lists (any length), all values, all arguments of tuple_cat, including an object passed twice", "why_tests_cant": "Tests use a handful of arities and types; the recursion on the list of types is generic, and tests do not look at lvalue arguments after tuple_cat or at components without a total order.", "anchors": ["src/ddc/detail/tuple/impl/tuple.hpp (139-474, 579-1143)", "src/ddc/detail/tuple/impl/creation.hpp (18-117)", "src/ddc/detail/tuple/impl/apply.hpp (73-146)", "src/ddc/kernels/splines/spline_evaluator_nd.hpp (145-170)"]}
{"id": "C57", "title": "The numerical helpers compute what their names say", "statement": "sum adds exactly the requested entries (also of a sub-range, nothing for an empty range); dot_product is the sum of the products; ipow is the power for every exponent, also a negative one; factorial is the factorial; min and max are the minimum and the maximum; modulo(x, y) is the remainder of x by y with the sign of y, although the quotient is computed in double precision and rounded.", "quantifier": "all arrays of any length, all bases and exponents, all arguments of type int (modulo: every rounding with relative error 2^-53 that is exact on integers of 53 bits)", "why_tests_cant": "Tests call modulo and ipow with small arguments; that the rounding of a quotient never moves it across an integer is a statement about 2^64 pairs of arguments.", "anchors": ["src/ddc/kernels/splines/math_tools.hpp (14-116)", "src/ddc/kernels/splines/spline_builder.hpp (812, 838, 968)"]}
{"id": "C58", "title": "Locating a coordinate is robust to rounding", "statement": "Whatever the rounding of the floating-point operations (relative error 2^-53, monotone, exact on integers): for every coordinate between rmin and rmax, uniform B-splines select an existing cell (index in [0, ncells)) and an offset in [0, 1] that represent the coordinate up to a few units in the last place; non-uniform B-splines select the cell that contains the coordinate; the coordinate wrapped by a periodic evaluator satisfies the assertions of the B-splines.", "quantifier": "all rounding functions, all segments, numbers of cells, degrees and coordinates", "why_tests_cant": "The error shows up only for some combinations of bounds, number of cells and coordinates next to the upper bound; tests use a few meshes, mostly with exactly representable steps.", "anchors": ["src/ddc/kernels/splines/bsplines_uniform.hpp (278-299, 357-360, 566-595)", "src/ddc/uniform_point_sampling.hpp (124-128, 170-197)", "src/ddc/kernels/splines/bsplines_non_uniform.hpp (667-695)", "src/ddc/kernels/splines/spline_evaluator.hpp (535-545)"]}
{"id": "C59", "title": "Greville points are usable in floating-point arithmetic", "statement": "Whatever the rounding of the floating-point operations: the Greville points of non-uniform B-splines, periodic or not, are sorted and approximate the averages of the inner knots to a few units in the last place; the Greville points of uniform B-splines are sorted and approximate rmin + (i + shift) dx, and with GREVILLE closures the averages of the knots repeated at the edges; each of these points is accepted and located in an existing cell by the B-splines, so that a builder can be constructed on them and the spline can be evaluated there.", "quantifier": "all rounding functions, degrees, break points, segments, numbers of cells and points", "why_tests_cant": "The failures depend on the last bits of the bounds; tests use a few meshes, mostly near the origin and with representable steps.", "anchors": ["src/ddc/kernels/splines/greville_interpolation_points.hpp (46-60, 70-131, 172-268)", "src/ddc/kernels/splines/bsplines_uniform.hpp (566-595)", "src/ddc/kernels/splines/bsplines_non_uniform.hpp (667-695)"]}
{"id": "C60", "title": "Values of B-splines stay accurate in floating-point arithmetic", "statement": "Whatever the rounding of the floating-point operations (relative error 2^-53, monotone, exact on integers): for every coordinate between the first and the last break points, eval_basis succeeds, returns values that are not negative, sum to 1 up to a few units in the last place and approximate the values of the B-splines defined by the Cox-de Boor recursion with a total error bounded explicitly in the degree (and, for uniform B-splines, the number of cells), however uneven the break points are; the B-splines listed exist.", "quantifier": "all rounding functions, degrees, break points, numbers of cells and coordinates", "why_tests_cant": "Tests compare with a tolerance at a few coordinates of a few meshes; they do not bound the error for uneven meshes, high degrees or the last bits of the coordinate.", "anchors": ["src/ddc/kernels/splines/bsplines_uniform.hpp (203-208, 392-427, 566-595)", "src/ddc/kernels/splines/bsplines_non_uniform.hpp (459-498, 667-695)"]}
{"id": "C61", "title": "Evaluation of a spline is accurate and in bounds in floating-point arithmetic", "statement": "Whatever the rounding of the floating-point operations: for every coordinate between the first and the last break points, the evaluation of a spline reads only existing coefficients and returns the value of the spline up to an explicit small multiple of the largest coefficient.", "quantifier": "all rounding functions, degrees, break points, numbers of cells, coefficients and coordinates", "why_tests_cant": "The out-of-bounds read depends on the last bits of the bounds and of the coordinate, and usually goes unnoticed because the corresponding value is tiny; tests use a few meshes and a tolerance.", "anchors": ["src/ddc/kernels/splines/spline_evaluator.hpp (528-605)", "src/ddc/kernels/splines/bsplines_uniform.hpp (392-427, 566-595)", "src/ddc/kernels/splines/bsplines_non_uniform.hpp (459-498)"]}
{"id": "C62", "title": "Uniform and periodic samplings in floating-point arithmetic", "statement": "Whatever the rounding of the floating-point operations (relative error 2^-53, monotone, exact on integers of 53 bits): init(a, b, n) gives n points, the first is exactly a, they are sorted, each is that of exact arithmetic up to an explicit small number of units in the last place of the largest coordinate, and they are distinct if the step is larger than the resolution; with ghost points the same holds except that the first point of the main domain is only close to a; the coordinates of a periodic sampling depend exactly on the index modulo the period.", "quantifier": "all rounding functions, all segments, numbers of points and of ghost points, all indices", "why_tests_cant": "The errors depend on the segment and on the number of points; tests check a few values with a tolerance, while sortedness and exact periodicity have to hold for every segment and index.", "anchors": ["src/ddc/uniform_point_sampling.hpp (124-192, 287-306)", "src/ddc/periodic_sampling.hpp (138-173)"]}
{"id": "C63", "title": "Evaluation of a spline in several dimensions is accurate and in bounds in floating-point arithmetic", "statement": "Whatever the rounding of the floating-point operations: for every coordinate of the domain, the evaluators in two, three and any number of dimensions, on uniform and non-uniform B-splines of any degrees, read only existing coefficients and return the sum over all the products of B-splines up to an explicit small multiple of the largest coefficient.", "quantifier": "all rounding functions, numbers of dimensions, degrees, break points, numbers of cells, coefficients and coordinates", "why_tests_cant": "The errors of the values in each dimension, of the products and of the sum combine differently in each evaluator (the products are made from left to right in two and three dimensions, from right to left in any number of dimensions); tests compare values on a few meshes with a tolerance.", "anchors": ["src/ddc/kernels/splines/spline_evaluator_2d.hpp (741-825)", "src/ddc/kernels/splines/spline_evaluator_3d.hpp (901-1019)", "src/ddc/kernels/splines/spline_evaluator_nd.hpp (724-824)"]}
{"id": "C64", "title": "Floating-point reductions and scans have a bounded error under every schedule", "statement": "Whatever the rounding and whatever way the backend splits, orders and joins the iterations: reductions and scans combine each transformed element exactly once (scans in order); a sum of n representable numbers is returned up to ((1+2^-53)^(n-1)-1) times the sum of their absolute values and a product with that relative error, so that two runs differ by at most twice this; sums of integers are exact, hence reproducible, as long as the sum of the absolute values has at most 53 bits; min and max are exact.", "quantifier": "all roundings, domains of all kinds and ranks, values, plans of the parallel reduction, blocks and orders of the parallel scan", "why_tests_cant": "The additions are not associative in floating-point arithmetic, so the result depends on the schedule; tests see one schedule per run and compare with a tolerance or with integers.", "anchors": ["src/ddc/reducer.hpp (13-35, 97-119)", "src/ddc/transform_reduce.hpp (29-110)", "src/ddc/parallel_transform_reduce.hpp (28-260)", "src/ddc/parallel_transform_scan.hpp (28-143)"]}
{"id": "C65", "title": "First derivatives of B-splines are accurate in floating-point arithmetic", "statement": "Whatever the rounding of the floating-point operations: for every coordinate of the domain, eval_deriv returns the derivatives of the polynomial pieces of the B-splines on the cell of the coordinate: for non-uniform B-splines (periodic ones included) with an error of at most 8 p 2^-53 times the sum of the two slopes the derivative is the difference of, whatever the spacing and multiplicity of the break points; for uniform B-splines with errors that add up to at most an explicit small multiple of the inverse of the step.", "quantifier": "all rounding functions, degrees, break points, numbers of cells and coordinates of the domain", "why_tests_cant": "A derivative is the difference of two rounded quotients by knot differences, so its relative error is not bounded and the right measure depends on the spacing of the knots; tests compare on a few meshes with a tolerance.", "anchors": ["src/ddc/kernels/splines/bsplines_uniform.hpp (428-472)", "src/ddc/kernels/splines/bsplines_non_uniform.hpp (500-557)"]}
{"id": "C66", "title": "Functions that launch several kernels or own temporaries behave as if every kernel ran when it is launched", "statement": "The builders in one, two and three dimensions (with every linear solver), quadrature_coefficients, integrate, the evaluators, integrals, fft/ifft, the constructor of SparseDiscreteDomain, create_mirror_and_copy and setup_solver of the 2x2 block solver may be called while kernels of earlier calls still wait; whatever the host thread and the instances of the execution spaces do first, no buffer is used before its allocation or after its release, there is no data race and no deadlock, and at the end the buffers contain what the commands give one after the other. Builders, quadrature_coefficients, integrate, create_mirror_and_copy and setup_solver return when no kernel waits; the constructor of SparseDiscreteDomain returns when no kernel of the default instance waits. They change no buffer except their outputs.", "quantifier": "all schedules, numbers of waiting kernels, effects of kernels, closures, solvers (nested blocks, any number of Ginkgo chunks), numbers of dimensions of integrate and of sparse domains", "why_tests_cant": "On the serial and OpenMP backends kernels run when they are launched, so a missing fence or a temporary released too early is invisible; on a GPU it shows up only with an unlucky timing.", "anchors": ["src/ddc/kernels/splines/spline_builder.hpp (905-1101, 1128-1234)", "src/ddc/kernels/splines/spline_builder_2d.hpp (587-651)", "src/ddc/kernels/splines/spline_builder_3d.hpp (934-1124)", "src/ddc/kernels/splines/splines_linear_problem_2x2_blocks.cpp (146-298)", "src/ddc/kernels/splines/splines_linear_problem_3x3_blocks.cpp (67-145)", "src/ddc/kernels/splines/splines_linear_problem_sparse.cpp (226-279)", "src/ddc/kernels/splines/integrals.hpp (31-175)", "src/ddc/kernels/splines/spline_evaluator.hpp (260-526)", "src/ddc/kernels/fft.hpp (147-228)", "src/ddc/sparse_discrete_domain.hpp (101-162)", "src/ddc/create_mirror.hpp (75-90)", "src/ddc/kokkos_allocator.hpp (57-70)"]}
{"id": "C67", "title": "Derivatives of all orders of B-splines and of splines are accurate in floating-point arithmetic", "statement": "Whatever the rounding of the floating-point operations: for every coordinate of the domain and every order, eval_basis_and_n_derivs returns the derivatives of the polynomial pieces of the B-splines on the interval of the coordinate: for non-uniform B-splines (periodic ones included) with an error of at most (10 p + 4) 2^-53 times the sum of the absolute values of the terms (B-splines of lower degree times coefficients) the derivative is the sum of, whatever the spacing and multiplicity of the break points; for uniform B-splines with an explicit small multiple of the inverse of the power of the step. The derivatives of a spline computed by the evaluator are those of the polynomial the spline is on that interval, up to an explicit multiple of the largest coefficient.", "quantifier": "all rounding functions, degrees, orders, break points, numbers of cells, coordinates of the domain and coefficients", "why_tests_cant": "The coefficients of the recursion are differences of rounded quotients with alternating signs; that no cancellation destroys them holds only by the alternation of signs, for all meshes and all orders; tests compare on a few meshes with a tolerance.", "anchors": ["src/ddc/kernels/splines/bsplines_uniform.hpp (474-565)", "src/ddc/kernels/splines/bsplines_non_uniform.hpp (560-664)", "src/ddc/kernels/splines/spline_evaluator.hpp (358-366, 557-605)"]}
{"id": "C68", "title": "Kernels read the attributes the host was given, from buffers that are alive", "statement": "With a device backend, in every sequence of guards and initialisations (including B-splines, which initialise the dimension of their knots): a kernel that reads a dimension gets exactly the attributes the host reads, which are those of its first successful initialisation; a dimension that is not initialised is refused; a call that throws leaves the dimension uninitialised; every buffer of points, on the host and on the device, belongs to one initialised dimension, is alive as long as it is initialised, and is released exactly once at the end of the guard.", "quantifier": "all histories of guard construction/destruction and (nested) initialisations over any set of dimensions, any attributes, any outcome of the copies to the device", "why_tests_cant": "Needs a device; stale device variables, dangling pointers in them and failed copies only show for particular histories and depend on what the released memory contains.", "anchors": ["src/ddc/discrete_space.hpp (58-160, 203-232)", "src/ddc/detail/dual_discretization.hpp (23-84)", "src/ddc/discrete_space.cpp (24-54)", "src/ddc/scope_guard.cpp (33-39)", "src/ddc/non_uniform_point_sampling.hpp (80-112)", "src/ddc/kernels/splines/bsplines_uniform.hpp (135-160)", "src/ddc/kernels/splines/bsplines_non_uniform.hpp (168-174, 456)"]}
{"id": "C69", "title": "Integrals of B-splines and of splines are accurate in floating point", "statement": "With rounding after every floating-point operation, `integrals` gives every B-spline its integral over the domain with a relative error of at most 4 units in the last place (non-uniform) or, for uniform B-splines, with an absolute error of at most (p+2)(p+18) 2^-53 steps for the p first and p last B-splines and none (up to the rounding of the step) for the others; repeated entries of periodic B-splines are exactly zero; the entries sum to the length of the domain up to the same errors; and `integrate` returns the integral of the spline up to an error proportional to the number of coefficients, their largest absolute value and the length of the domain; for all orders of the parallel loops.", "quantifier": "all roundings with relative error 2^-53, all degrees below 2^20, all break points with separated ends, all numbers of cells below 2^31, all coefficients, all schedules", "why_tests_cant": "A test compares a few integrals with a tolerance chosen by hand; the bound has to hold for every degree, spacing of the break points and set of coefficients.", "anchors": ["src/ddc/kernels/splines/integrals.hpp (30-154)", "src/ddc/kernels/splines/math_tools.hpp (24-54)", "src/ddc/kernels/splines/bsplines_uniform.hpp (392-427)", "src/ddc/kernels/splines/spline_evaluator.hpp (494-526)"]}
{"id": "C70", "title": "The interpolation matrix of SplineBuilder is accurate in floating point", "statement": "With rounding after every floating-point operation, constructing the builder succeeds up to the factorization and the matrix it assembles is the matrix of the values of the B-splines at the interpolation points: for non-uniform B-splines with Greville closures every entry has a relative error of at most 8 p 2^-53, so that a vector of coefficients that solves the system with small residuals gives a spline that interpolates, both in exact arithmetic and as the evaluator computes it; for uniform periodic B-splines the matrix is the circulant matrix of the values of the B-splines at the middle of a cell or at a knot, up to the errors on the positions of the points, with the shift p/2. No assertion of set_element on entries outside the band fails.", "quantifier": "all roundings with relative error 2^-53 (to nearest for the uniform points), all degrees, all increasing break points, all interpolation points between the inner knots of their B-splines, all coefficients and right-hand sides", "why_tests_cant": "A test interpolates a few functions on a few grids with a tolerance chosen by hand; whether rounding moves a point to the neighbouring cell, and so an entry out of the band of the storage, depends on the number of cells and the ends of the domain.", "anchors": ["src/ddc/kernels/splines/spline_builder.hpp (227-260, 634-658, 727-774, 791-886)", "src/ddc/kernels/splines/splines_linear_problem_pds_band.cpp (66-82)", "src/ddc/kernels/splines/splines_linear_problem_band.cpp (91-108)", "src/ddc/kernels/splines/bsplines_uniform.hpp (393-430)", "src/ddc/kernels/splines/bsplines_non_uniform.hpp (460-500)"]}
{"id": "C71", "title": "Derivatives of a spline in several dimensions are accurate and in bounds in floating-point arithmetic", "statement": "Whatever the rounding of the floating-point operations: for every coordinate of the domain, every choice of the dimensions along which and of the orders to which derivatives are taken, the evaluators in two, three and any number of dimensions, on uniform and non-uniform B-splines of any degrees, read only existing coefficients and return the sum over all the products of values of B-splines and of derivatives of their polynomial pieces on the interval of the coordinate, up to an explicit small multiple of the largest coefficient and of the bounds of the derivatives of the B-splines in each dimension.", "quantifier": "all rounding functions, numbers of dimensions, orders, degrees, break points, numbers of cells, coefficients and coordinates", "why_tests_cant": "Each combination of orders instantiates other code; the errors on derivatives in one dimension are multiplied by values in the others and summed in an order that depends on the evaluator; tests compare a few derivatives of low order on a few meshes with a tolerance.", "anchors": ["src/ddc/kernels/splines/spline_evaluator_2d.hpp (732-825)", "src/ddc/kernels/splines/spline_evaluator_3d.hpp (891-1019)", "src/ddc/kernels/splines/spline_evaluator_nd.hpp (724-824)", "src/ddc/kernels/splines/bsplines_uniform.hpp (474-565)", "src/ddc/kernels/splines/bsplines_non_uniform.hpp (560-664)"]}
{"id": "C72", "title": "Evaluators in several dimensions reduce periodic coordinates and choose extrapolation rules correctly in floating-point arithmetic", "statement": "Whatever the rounding of the floating-point operations, for the evaluators in two, three and any number of dimensions: coordinates of the domain are not changed; a coordinate outside of a periodic dimension is replaced by one that differs from it by a whole number of periods and a tiny fraction of a period and is in the domain up to such a fraction; if a coordinate is outside of the domain of a dimension that is not periodic, the result is that of the lower or the upper rule, according to the side, of the first such dimension, applied to the reduced coordinates; otherwise it is the value of the spline at these coordinates, up to the error of the evaluation. With constant extrapolation rules made for the ends of the domain, the result outside is, bit for bit, the result at the closest point of the domain, in corners as well and for a periodic other dimension.", "quantifier": "all rounding functions, numbers of dimensions, combinations of periodic and other dimensions, rules, coefficients and coordinates (within 16 periods in periodic dimensions)", "why_tests_cant": "The number of combinations of sides and dimensions grows exponentially; the reduced coordinate may leave the domain by the last bits for some coordinates only.", "anchors": ["src/ddc/kernels/splines/spline_evaluator.hpp (528-555)", "src/ddc/kernels/splines/spline_evaluator_2d.hpp (679-730)", "src/ddc/kernels/splines/spline_evaluator_3d.hpp (815-889)", "src/ddc/kernels/splines/spline_evaluator_nd.hpp (638-721)", "src/ddc/kernels/splines/constant_extrapolation_rule.hpp (29-195)"]}
{"id": "C73", "title": "Integrals of splines in several dimensions are accurate in floating-point arithmetic", "statement": "Whatever the rounding of the floating-point operations and the order of execution, in any number of dimensions and for uniform and non-uniform B-splines, periodic or not: `integrate` of the evaluators writes for each element of the batch domain the iterated integral of the spline, with an error that is a small multiple (the number of coefficients, the number of dimensions and the precisions of the integrals of the B-splines, times 2^-53) of the volume of the domain times the largest coefficient.", "quantifier": "all rounding functions, numbers of dimensions (at most 40), degrees, break points, numbers of cells, coefficients, batch sizes, orders of execution and both orders of the products", "why_tests_cant": "The error grows with the number of coefficients and depends on the order of the sums; tests compare with a tolerance for a few sizes.", "anchors": ["src/ddc/kernels/splines/spline_evaluator.hpp (494-526)", "src/ddc/kernels/splines/spline_evaluator_2d.hpp (616-660)", "src/ddc/kernels/splines/spline_evaluator_3d.hpp (742-797)", "src/ddc/kernels/splines/spline_evaluator_nd.hpp (597-635)", "src/ddc/kernels/splines/integrals.hpp (30-178)"]}
{"id": "C74", "title": "Residuals of the direct linear solvers in floating-point arithmetic", "statement": "Whatever the rounding of the floating-point operations, for dense, band, symmetric, tridiagonal, 2x2-block and 3x3-block matrices: if the external solvers return vectors whose residual is at most rho times the sum of the absolute values of the vector, then solve() replaces each right-hand side, direct or transposed, by a vector whose residual is at most an explicit multiple (rho, the round-off 2^-53 times the size and the largest entry, and the tolerance 1e-14 of dense2coo, times one plus the column sums of the computed Q^-1 gamma) of the sum of its absolute values; nothing else is written; the set-up of a matrix with at most one level of blocks gives a solver or throws.", "quantifier": "all rounding functions, matrices, sizes (at most 2^39), block sizes, numbers of right-hand sides, offsets, orders of the parallel iterations, direct or transposed", "why_tests_cant": "Residuals depend on the matrix, on the order of the sums and on entries just below and above the tolerance of the sparse storage; tests compare a few well conditioned matrices with a tolerance.", "anchors": ["src/ddc/kernels/splines/splines_linear_problem_2x2_blocks.cpp (146-298)", "src/ddc/kernels/splines/splines_linear_problem_3x3_blocks.cpp (66-151)", "src/ddc/kernels/splines/splines_linear_problem_dense.cpp (67-125)", "src/ddc/kernels/splines/splines_linear_problem_band.cpp (109-165)", "src/ddc/kernels/splines/splines_linear_problem_pds_band.cpp (84-120)", "src/ddc/kernels/splines/splines_linear_problem_pds_tridiag.cpp (81-113)"]}
{"id": "C75", "title": "Interpolation by SplineBuilder in floating-point arithmetic", "statement": "Whatever the rounding of the floating-point operations: on increasing interpolation points, as many as B-splines, that are inside the support of their B-splines, with no more points in a cell than a polynomial can interpolate, the constructor of SplineBuilder (closures PERIODIC or GREVILLE) fails only if the factorisation does; then operator() computes, for every column of data and every order of the parallel iterations, the coefficients of a spline whose exact values and whose values as computed by the evaluator at the interpolation points are the data, up to the residual of the linear solver and the rounding of the matrix times the largest coefficient; for periodic splines the coefficients at both ends agree.", "quantifier": "all rounding functions, break points, degrees, data, numbers of columns, orders of the parallel iterations, external solvers with a small residual", "why_tests_cant": "The tests interpolate a few smooth functions on a few grids and compare with a tolerance; the bound holds for all data and follows from the errors of every step, including entries dropped by the sparse storage.", "anchors": ["src/ddc/kernels/splines/spline_builder.hpp (227-260, 634-886, 905-1101, 1253-1317)", "src/ddc/kernels/splines/splines_linear_problem_2x2_blocks.cpp (146-298)", "src/ddc/kernels/splines/splines_linear_problem_3x3_blocks.cpp (66-151)", "src/ddc/kernels/splines/spline_evaluator.hpp (385-556)"]}
{"id": "C76", "title": "The heat equation of the examples", "statement": "The example uniform_heat_equation.cpp, whatever its parameters (non-empty intervals, two points or more in each dimension, positive conductivities, sizes that fit in the integers) and whatever the orders in which the iterations of its kernels and the assignments of its copies are carried out, ends without an assertion and without an access outside of its two chunks; the temperatures at the points are then those of the explicit scheme with five points on a torus, after the smallest number of time steps not longer than the stable one that cover the time interval exactly; hence no temperature is above the highest or below the lowest initial one, and the sum of the temperatures does not change.", "quantifier": "all parameters, initial temperatures, contents of fresh memory, orders of the parallel iterations and copies in every time step", "why_tests_cant": "The example is run with one set of parameters and its output is not compared with anything; an exchange of a ghost and a mirror or a missing swap only changes numbers on the screen.", "anchors": ["examples/uniform_heat_equation.cpp (72-271)", "src/ddc/uniform_point_sampling.hpp (150-218)", "src/ddc/parallel_for_each.hpp", "src/ddc/parallel_deepcopy.hpp", "src/ddc/chunk_span.hpp"]}
{"id": "C77", "title": "The heat equation of the examples by distances between points", "statement": "The example heat_equation.cpp computes the same temperatures as uniform_heat_equation.cpp. The example non_uniform_heat_equation.cpp, whatever its parameters (non-empty intervals, two points or more, positive conductivities, sizes that fit in an int), the random displacements of its points and the orders in which the iterations of its kernels and the assignments of its copies are carried out, ends without an assertion and without an access outside of its chunks; the temperatures at the points are those of the explicit scheme with the second differences on the displaced points, after the smallest number of time steps not longer than half of the inverse of kx times the greatest 1/(left distance * right distance) along x plus the same along y; no temperature is above the highest or below the lowest initial one; the heat (temperatures times areas around the points) does not change, and two points that are the same one of the period have the same temperature.", "quantifier": "all parameters, displacements, initial temperatures, contents of fresh memory, orders of the parallel iterations and copies in every time step", "why_tests_cant": "The examples are run with one set of parameters and their output is not compared with anything; the points of the non-uniform one are random.", "anchors": ["examples/heat_equation.cpp (84-327)", "examples/non_uniform_heat_equation.cpp (25-90, 145-365)", "src/ddc/non_uniform_point_sampling.hpp", "src/ddc/uniform_point_sampling.hpp", "src/ddc/transform_reduce.hpp"]}
{"id": "C78", "title": "The game of life of the examples", "statement": "The example game_of_life.cpp, for every size of the board from two by two on and every number of rounds, whatever the orders in which the iterations of its kernels and the assignments of its copies are carried out, ends without an assertion and without an access outside of its three chunks; it prints one board more than there are rounds, and the k-th board is the k-th generation by Conway's rule, on a board whose border does not change, of three live cells in a row; on boards of five by five cells or more the printed boards alternate between the row and a column of three cells. The same holds for its loop started from any board held by both device chunks.", "quantifier": "all board sizes and numbers of rounds that fit in unsigned, contents of fresh memory, orders of the parallel iterations and copies in every round, initial boards (loop)", "why_tests_cant": "The example runs one board of five by five cells and its output is not compared with anything; the kernel leaves unchanged cells of the output chunk alone, which is right only because both chunks hold the same board before each round.", "anchors": ["examples/game_of_life.cpp (23-118)", "src/ddc/trivial_space.hpp", "src/ddc/discrete_domain.hpp (168-193)", "src/ddc/parallel_for_each.hpp", "src/ddc/parallel_deepcopy.hpp", "src/ddc/create_mirror.hpp (46-62)"]}
{"id": "C79", "title": "The heat equation of the examples by Fourier transforms", "statement": "The example heat_equation_spectral.cpp, for all its parameters with non-empty intervals and positive conductivities, from two to 2^31 points per dimension, every initial temperature and every order of the iterations of its kernels, ends without an assertion; every mode of the temperatures at the end is that of the initial temperatures times the M-th power of the factor of an explicit Euler step of the heat equation for this mode, with the wave number of the mode on the torus; no mode is amplified, the sum of the temperatures is kept, the sum of their squares does not grow; the M steps advance by the time from start_time to end_time.", "quantifier": "all real parameters, numbers of points, initial temperatures, orders of parallel iterations, exact Fourier libraries", "why_tests_cant": "The example runs one set of parameters and its output is not compared with anything; whether the wave numbers belong to the modes that the transform stores, and whether the time step is stable for every mode, depends on the parity of the numbers of points and on the lengths of the intervals.", "anchors": ["examples/heat_equation_spectral.cpp (72-208)", "src/ddc/kernels/fft.hpp (148-425)", "src/ddc/periodic_sampling.hpp", "src/ddc/uniform_point_sampling.hpp", "src/ddc/parallel_for_each.hpp"]}
{"id": "C80", "title": "The semi-Lagrangian advection of the examples", "statement": "The example characteristics_advection.cpp, for all its parameters with non-empty intervals and a positive maximal time step, two cells or more along x (from four to 35000 in a periodic dimension), every initial density and every order of the iterations of its kernels, ends without an assertion. Each time step replaces, along every line, the density by the values at the points displaced by -vx*dt of a cubic spline that takes the former values at the points (up to 5e-13 times the sum of its coefficients); the spline is periodic in a periodic dimension, and is replaced by zero outside of the domain otherwise. The steps have equal lengths of at most max_dt and cover the time from start_time to end_time. In a periodic dimension the sum of the density along every line is kept and the sum of its squares does not grow, up to the tolerance of the interpolation, and when a step displaces by whole cells the run carries the density along the characteristics.", "quantifier": "all parameters in an ordered field, numbers of cells and points, initial densities, orders of parallel iterations, schedules of the builder and the evaluator, exact solvers", "why_tests_cant": "The example runs one set of parameters, in which a step displaces by exactly one cell, and its output is not compared with anything; stability and conservation are statements on all displacements and all numbers of steps.", "anchors": ["examples/characteristics_advection.cpp (30-75, 99-282)", "src/ddc/kernels/splines/spline_builder.hpp", "src/ddc/kernels/splines/spline_evaluator.hpp", "src/ddc/kernels/splines/greville_interpolation_points.hpp", "src/ddc/parallel_for_each.hpp"]}
{"id": "C81", "title": "Memory from the aligned allocator", "statement": "Whatever a user asks from an AlignedAllocator and releases, in any order: every array is aligned to N and has room for its elements, arrays in use do not overlap, releasing an array gives back its block and no other, and once everything is released the memory is as it was; only a lack of memory makes a request fail. Two allocators compare equal exactly when they are of the same type.", "quantifier": "all element types, alignments, histories of requests and releases, addresses that operator new[] may give", "why_tests_cant": "The class has no test; errors of alignment or of deallocation depend on the element type and on the addresses that the system gives, and are often silent.", "anchors": ["src/ddc/aligned_allocator.hpp (13-71)"]}
{"id": "C82", "title": "The semi-Lagrangian advection of the examples, in floating-point numbers", "statement": "The example characteristics_advection.cpp with a periodic dimension, computed in floating-point numbers, for all parameters with non-empty intervals and a positive maximal time step, from four to 35000 cells, a domain at most eight times as far from zero as it is wide, displacements of at most eight periods per step and fewer than 2^50 steps, every initial density and every order of the iterations of its kernels, ends without an assertion and without reading outside of its arrays. Each time step replaces, along every line, the density by the values at the points displaced by -vx*dt of a periodic cubic spline that takes the former values at the points, up to n 2^-35 and four times the error of the builder, relative to the largest value of the line. The steps cover the time from start_time to end_time up to 3*2^-53. The sum of the density along every line is kept and the sum of its squares does not grow, up to these errors, and when a step displaces by nearly whole cells the run carries the density along the characteristics.", "quantifier": "all parameters, numbers of cells and points, initial densities, orders of parallel iterations, schedules of the builder and the evaluator, roundings to nearest with relative error 2^-53, backward stable solvers", "why_tests_cant": "The example runs one set of parameters and its output is not compared with anything. Whether a foot is rounded to just below the upper end of the domain, where the evaluator computes a cell that does not exist, depends on the last bits of the parameters.", "anchors": ["examples/characteristics_advection.cpp (30-75, 99-282)", "src/ddc/kernels/splines/spline_evaluator.hpp (256-294, 535-605)", "src/ddc/kernels/splines/bsplines_uniform.hpp (568-595)", "src/ddc/kernels/splines/spline_builder.hpp", "src/ddc/kernels/splines/greville_interpolation_points.hpp (50-68)"]}
{"id": "C83", "title": "The heat equation of the examples, in floating-point numbers", "statement": "The example uniform_heat_equation.cpp, computed in floating-point numbers, for all parameters with non-empty intervals, two points or more in each dimension, positive conductivities, at most 2^53 - 2 points in each dimension, chunks whose size fits in the integers and at most 2^49 stable time steps, every initial temperature and every order of the iterations of its kernels and of the assignments of its copies, ends without an assertion and without an access outside of its chunks. The number N of time steps is that of exact arithmetic unless the quotient of the time interval and the stable step is an integer up to 60 * 2^-53. The temperatures are those of N steps of the scheme with five points on the torus that cover the time interval, up to ((1 + 2^-45)^N - 1) times the largest initial temperature; with the same tolerance they stay between the lowest and the highest initial one and their mean does not change. The constants of the program give 103 steps and temperatures between -1e-10 and 9.999 + 1e-10.", "quantifier": "all parameters, initial temperatures, contents of fresh memory, orders of the parallel iterations and copies in every time step, monotone roundings with relative error 2^-53", "why_tests_cant": "The example is run with one set of parameters and its output is not compared with anything. The time step is the longest stable one, so that rounding may take it beyond the limit of stability; that errors still do not grow faster than (1 + 2^-45)^N cannot be seen on samples.", "anchors": ["examples/uniform_heat_equation.cpp (72-271)", "src/ddc/uniform_point_sampling.hpp (124-128, 140-218)", "src/ddc/parallel_for_each.hpp", "src/ddc/parallel_deepcopy.hpp"]}
{"id": "C84", "title": "The heat equation of the examples by distances between points, in floating-point numbers", "statement": "The examples heat_equation.cpp and non_uniform_heat_equation.cpp, computed in floating-point numbers, end without an assertion and without an access outside of their chunks, for all parameters as in C83 and, for displaced points, all displacements up to 1/8 of the distance of equally spaced points, at most 2^31 - 1 points in each dimension and distances of at least 2^-46 times the size of the coordinates. The points and their distances, also across the ends, are those asked for, up to 6 * 2^-53 and 24 * 2^-53 times the size of the coordinates, and the points are strictly increasing. The number N of steps is the smallest that is stable for the smallest product of distances, unless the quotient is an integer up to 60 * 2^-53. The temperatures are those of N steps of the scheme with second differences at these distances on the torus, up to ((1 + 2^-45)^N - 1) times the largest initial temperature, and with the same tolerance they stay between the lowest and the highest initial one. With equally spaced points the reference is the scheme of uniform_heat_equation.cpp, the sum of the temperatures is conserved with the same tolerance for each point, and the constants of the program give 103 steps.", "quantifier": "all parameters, displacements, initial temperatures, contents of fresh memory, orders of the parallel iterations and copies in every time step, monotone roundings with relative error 2^-53", "why_tests_cant": "The examples are run with one set of parameters (and random displacements) and their output is not compared with anything. The points are rounded, their ghosts are computed from rounded points, and the distances are differences of near numbers; that the points remain distinct and the longest stable step remains almost stable for all parameters cannot be seen on samples.", "anchors": ["examples/heat_equation.cpp (84-327)", "examples/non_uniform_heat_equation.cpp (24-90, 145-365)", "src/ddc/non_uniform_point_sampling.hpp (129-237)", "src/ddc/uniform_point_sampling.hpp (124-128, 140-285)", "src/ddc/transform_reduce.hpp", "src/ddc/parallel_for_each.hpp", "src/ddc/parallel_deepcopy.hpp"]}
{"id": "C85", "title": "Fourier transforms and wave numbers in floating-point numbers", "statement": "With coordinates of a mesh that are at most R times its length along each dimension, the wave numbers that init_fourier_space computes in floating-point numbers for 2 to 2^31 points are 2*pi*m/(n dx), m the integer congruent to the mode in [-n/2, n/2), with a relative error of at most (13 R + 16) * 2^-53. For a library whose transforms are accurate to eta times the sum of the absolute values of the data, fft and ifft on complex and real data give the discrete Fourier transform times the documented factor of each normalisation, with a relative tolerance of (1 + eta)(1 + 2^-53)^((6 R + 10) d + 1) - 1 forwards and (1 + eta)(1 + 2^-53)^((12 R + 22) d + 1) - 1 backwards in d dimensions; ifft after fft gives the data back (times their number for OFF) to about twice eta plus five roundings per dimension, however inaccurate the coordinates are, since the backward coefficient of FULL is computed from the forward one.", "quantifier": "all ranks up to 256, sizes, samplings, data, normalisations, monotone roundings with relative error 2^-53, square roots of relative error 2^-53, tolerances of the library", "why_tests_cant": "The tests compare transforms of a few functions on a few meshes with loose tolerances. The error of the coefficients depends on where the mesh lies with respect to the origin, and on all roundings; that the errors of both coefficients cancel in a round trip cannot be separated from the errors of the library on samples.", "anchors": ["src/ddc/kernels/fft.hpp (100-277, 344-425)", "src/ddc/kernels/fft.cpp (13-34)", "src/ddc/uniform_point_sampling.hpp (124-128, 287-306)", "src/ddc/periodic_sampling.hpp (138-173)"]}
{"id": "C86", "title": "The heat equation of the examples by Fourier transforms, in floating-point numbers", "statement": "The example heat_equation_spectral.cpp, computed in floating-point numbers with a Fourier library that is accurate to eta, ends without an assertion and without an access outside of its chunks, for all parameters with 2 to 2^31 points per dimension and at most 2^49 steps, on domains at most Q <= 2^20 times their length away from the origin. The points are those asked for, up to rounding. The number M of steps is the least number not below the length of the interval divided by the longest stable step, unless this quotient is an integer up to 68 * 2^-53. The temperatures at the end are those of M steps of exact arithmetic (each multiplies the mode (k, l) by 1 - (kx rkx^2 + ky rky^2) dt, dt the longest stable step) up to ((1 + tol)^M - 1) times the Euclidean norm of the initial ones, where tol is about n m (3 eta + 800 (Q + 1) 2^-53); their norm does not grow by more than (1 + tol)^M, and their sum is conserved with the same tolerance. With the constants of the program and eta = 2^-50 there are 252 steps with an error of at most 10^-7, and they go beyond the end of the interval.", "quantifier": "all parameters, initial temperatures, contents of fresh memory, orders of the parallel iterations in every time step, monotone roundings with relative error 2^-53, libraries of tolerance eta", "why_tests_cant": "The example is run with one set of parameters and its output is not compared with anything. The fastest mode is multiplied by -1 in every step, at the limit of stability: whether rounding errors of the wave numbers, of the time step and of the transforms stay bounded over all steps, for all parameters, cannot be seen on samples.", "anchors": ["examples/heat_equation_spectral.cpp (72-208)", "src/ddc/kernels/fft.hpp (100-277, 344-425)", "src/ddc/uniform_point_sampling.hpp (124-128, 140-306)", "src/ddc/periodic_sampling.hpp (138-173)", "src/ddc/parallel_for_each.hpp"]}
{"id": "C87", "title": "The output of the example programs", "statement": "The programs of the examples that advance a solution in time show the initial state, then the states after P, 2P, 3P... steps (P the output period), and the final state, each exactly once and in this order, whether or not P divides the number of steps, and whatever the state and the function that shows it, as long as none of the functions called fails. For uniform_heat_equation.cpp, heat_equation.cpp and non_uniform_heat_equation.cpp, what is shown at step k is the coordinate of the iteration, startTime + k (endTime - startTime) / M, the mean of the temperatures after k steps of the scheme on the torus over the points of the domain without its ghosts, the index ny / 2, and the temperatures on the line of that index, in order; the output reads nothing outside of the chunks and does not change the computation. The first output is at the start time, the last at the end time, the times increase strictly, the first two programs show the same, and the mean they show is always the initial one. For heat_equation_spectral.cpp, the state shown at step k is the one whose modes are those of the initial temperatures times the k-th power of the factor of an explicit step of the longest stable length, the mean is always the initial one, and the time shown with it is startTime + k (endTime - startTime) / M, which is before the time that these steps have reached unless they divide the time interval. For characteristics_advection.cpp, with and without a periodic dimension, the state shown at step k is the one that k steps of the semi-Lagrangian scheme have reached, with its time, the mean over the points and the line at half of the height, when the size of the domain fits in its type. With a periodic dimension the mean it shows at step k is the initial one up to an explicit bound proportional to k, of the size of the matrix entries that the builder drops.", "quantifier": "all parameters, output periods, initial temperatures, displacements of the points, contents of fresh memory, orders of the parallel iterations and copies in every time step; the schedule: all states, steps, display functions, first elements and lengths of the time domain", "why_tests_cant": "The examples are run with one output period and one number of steps and their output is not compared with anything; that no state is shown twice or missed at the end depends on the remainder of the number of steps by the period, and that the state shown is the one of the time shown depends on which of the two exchanged buffers is displayed before and after the exchange.", "anchors": ["examples/uniform_heat_equation.cpp (55-271)", "examples/heat_equation.cpp (65-327)", "examples/non_uniform_heat_equation.cpp (130-365)", "examples/heat_equation_spectral.cpp (53-208)", "examples/characteristics_advection.cpp (77-282)", "src/ddc/transform_reduce.hpp (37-161)", "src/ddc/discrete_vector.hpp (234-243)", "src/ddc/chunk_span.hpp (309-334)"]}
{"id": "C88", "title": "The mean shown by the example programs, with rounding", "statement": "With a rounding to the nearest double after every operation, the mean that the example programs show of a chunk of n representable values, n between 1 and 2^53, is the mean of the values up to ((1+2^-53)^n - 1) times the mean of their absolute values, whatever the domain and the layout of the chunk; it reads each value exactly once and nothing else. So the mean of values between lo and hi with absolute values of at most V is between lo - ((1+2^-53)^n - 1) V and hi + ((1+2^-53)^n - 1) V, and the mean of values that are not negative is not negative. It may exceed the largest value: the mean shown of three times 0.1 is the next double. For an empty domain the sum is divided by zero. For uniform_heat_equation.cpp and heat_equation.cpp with rounding, run to the end with any data, on at most 2^53 points: the mean shown at the end is the mean of the initial temperatures up to ((1 + t)(1+2^-53)^(nx ny) - 1) V, where t = (1+2^-45)^N - 1 is the growth of the errors in the N steps and V bounds the initial temperatures; for the constants of the first program up to 10^-10.", "quantifier": "all roundings to the nearest, ranks, domains of at most 2^53 elements, layouts of the chunk and values; for the programs, all parameters within the bounds of C83, all initial temperatures and all schedules", "why_tests_cant": "The examples are run but what they print is not compared with anything; the error depends on the number of points, the order of the additions and the values.", "anchors": ["examples/uniform_heat_equation.cpp (56-69, 72-271)", "examples/heat_equation.cpp (65-80, 85-327)", "examples/non_uniform_heat_equation.cpp (128-143)", "examples/heat_equation_spectral.cpp (56-70)", "examples/characteristics_advection.cpp (81-96)", "src/ddc/transform_reduce.hpp (29-161)", "src/ddc/reducer.hpp (13-23)"]}
