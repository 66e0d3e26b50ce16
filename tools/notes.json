{
 "C01": {
  "status": "proved",
  "note": "Type-sequence metafunctions over lists of tags, all packs."
 },
 "C02": {
  "status": "proved",
  "note": "Constructor, select, get_or and comparison are independent of tag order; comparison with a strictly larger right pack is shown asymmetric."
 },
 "C03": {
  "status": "proved",
  "note": "Element arithmetic on 64-bit indices; exact when in range, modulo 2^64 otherwise."
 },
 "C04": {
  "status": "partial",
  "note": "Signed vector arithmetic with undefined behaviour as outcome. C04_sub_partial needs the right operand to be negatable when the left pack is smaller; C04_sub_not_exact exhibits the excluded case in the code."
 },
 "C05": {
  "status": "partial",
  "note": "Contiguous domains on 64-bit bounds: constructor, contains, size, front/back agree with the product of integer ranges. The size claim holds modulo 2^64; C05_size_wraps shows the code returning size 0 and empty() for a non-empty domain when the product overflows."
 },
 "C06": {
  "status": "proved",
  "note": "take/remove first/last of contiguous and strided domains split the index sets for all admissible counts (in range). The sparse members do not compile when instantiated and are out of the model."
 },
 "C07": {
  "status": "proved",
  "note": "Positions and elements are in bijection for contiguous, strided (positive strides, past-the-end index representable) and sparse (sorted) domains; abort or undefined behaviour outside."
 },
 "C08": {
  "status": "partial",
  "note": "Contiguous and sparse: == iff same points (sizes not wrapping). Strided: == iff same points and, when non-empty, same strides; iff same points when all extents are >= 2; C08_strided_eq_stride exhibits the disagreement of the code for extent 1, C08_eq_wraps the one for wrapping sizes."
 },
 "C09": {
  "status": "proved",
  "note": "restrict_with: aborts exactly outside its documented precondition, otherwise computes the set intersection, idempotent."
 },
 "C10": {
  "status": "proved",
  "note": "Products, projections, removal and replacement of dimensions of contiguous, strided and sparse domains, for all factors, and the free accessors of the three kinds."
 },
 "C11": {
  "status": "partial",
  "note": "Random access iterator laws for contiguous, strided and sparse domains, with the undefined cases of the code stated. C11_strided_difference_wrong: the difference of strided iterators is not divided by the stride, so end - begin is not the size."
 },
 "C12": {
  "status": "proved",
  "note": "Serial loops equal the fold of the functor over a duplicate-free, lexicographically sorted list of exactly the contained elements, for all three kinds of domains, any rank and any effectful functor."
 },
 "C13": {
  "status": "partial",
  "note": "Strided membership equals membership in the product of progressions for non-empty axes or empty ones with front + 1 >= stride; C13_empty_contains_front exhibits an empty domain that contains its front, C13_zero_stride the undefined stride 0."
 },
 "C14": {
  "status": "proved",
  "note": "lower_bound/binary_search: total on every array, exact on strictly increasing ones; contains, distance_from_front, size."
 },
 "C19": {
  "status": "proved",
  "note": "Every schedule is a permutation of the elements of the domain (any of the three kinds, any rank); independent functors and parallel_transform end in the memory of the sequential loop. C19_interleaving strengthens this from whole iterations to interleavings of single memory accesses: if each iteration touches only its own cells and read-only cells, every interleaving ends (C19_interleaving_ends), can always go on (C19_interleaving_progress), has no data race (C19_race_free) and leaves the memory of the host loop; C19_racy is the lost update when the hypothesis fails. Single accesses are atomic; Kokkos is trusted to run each iteration of the policy once. parallel_fill is a Kokkos::deep_copy (Model/Copy, C18)."
 },
 "C21": {
  "status": "proved",
  "note": "Any monoid, any rank and kind of domain; order of combination for non-commutative reductions; rank 0 ignores neutral."
 },
 "C22": {
  "status": "partial",
  "note": "Every plan (tree of private accumulators over any permutation of the iterations) gives the host result started from the Kokkos identity. The part of the statement about the user-provided neutral is false for this code: C22_neutral_ignored. Exact arithmetic (integers modulo 2^w, commutative semirings); Kokkos reducers are given by their contract."
 },
 "C23": {
  "status": "partial",
  "note": "Whole batched algorithm for every cut in blocks and every order of the second pass. The exclusive scan needs a functor that does not read its own output cell (C23_exclusive_in_place shows the failure) and starts from the Kokkos identity, there is no init argument."
 },
 "C24": {
  "status": "proved",
  "note": "All reducers on unsigned integers of any width, semirings and linear orders. land/lor only on {0,1} (C24_logical_no_unit). The functors have no neutral(): the identity is that of the Kokkos reducer."
 },
 "C20": {
  "status": "partial",
  "note": "Contiguous and strided domains of any rank, any counts >= 1: exact partition into balanced blocks, in a fixed order. Total version: C20_total_partial asks for extents below 2^62 and allows one block in an empty dimension; C20_overflow and C20_empty_dimension show both restrictions are needed by this code. Unsuitable totals throw inside a noexcept function, so the program terminates (C20_total_terminates). Sparse domains do not compile with this algorithm."
 },
 "C15": {
  "status": "proved",
  "note": "Contiguous, strided and sparse supports of any rank with fewer than 2^64 elements, layout_right allocation by Chunk and layout_left views; access by elements (any order and grouping), by displacement, and outside the domain (assertion). C15_wraps: with 2^64 elements or more the size wraps and the allocation is too small. mdspan is modelled by its contract."
 },
 "C16": {
  "status": "proved",
  "note": "Spans of any rank on contiguous, strided and sparse domains, any strided mapping that stays in its allocation: slices by elements and displacements, nesting, restriction to subdomains, assertions. C16_negative_displacement and C16_empty_outside show two inputs the assertions let through to an invalid submdspan call. submdspan is modelled by its contract."
 },
 "C17": {
  "status": "proved",
  "note": "All histories of construction (including failing and null allocations), move, move assignment, swap, element writes and destruction, on any support kind: linear ownership, refinement to values, no undefined step, nothing left at the end, and the label follows the allocation (C17_labels). Self-move loses the contents (C17_self_move); the byte count wraps (C17_bytes_wrap). kokkos_malloc/kokkos_free by contract."
 },
 "C18": {
  "status": "proved",
  "note": "All three kinds of domains, all layouts, every order of the assignments; Kokkos::deep_copy by contract. C18_view_other_space: view variants alias the source as soon as it is accessible, also in another space (documented). C18_empty_extents: empty domains of different extents pass the assertion but deep_copy throws. Fences/streams not modelled."
 },
 "C25": {
  "status": "partial",
  "note": "All well-scoped histories (guards do not nest, initialisations inside a guard, distinct type names), host part, and the listing of the store (C25_display). The claim fails outside of these: C25_nested_guards, C25_without_guard (undefined behaviour), C25_same_name. Device copies of the attributes are in C68."
 },
 "C26": {
  "status": "proved",
  "note": "Exact arithmetic over any ordered field (rounding not modelled)."
 },
 "C27": {
  "status": "partial",
  "note": "Uniform and non-uniform samplings: full. Periodic sampling: the partition holds always, the coordinates of the main domain only inside the first half period; the rest of the claim is false (C27_periodic_wraps). Exact arithmetic."
 },
 "C28": {
  "status": "proved",
  "note": "All point lists over any linearly ordered field; NaN not modelled."
 },
 "C29": {
  "status": "partial",
  "note": "Periods up to 2^31 and indices i with i + n/2 < 2^64; outside of these the claim is false (C29_int_overflow, C29_long_period: every period between 2^31 and 2^32, C29_index_wraps). The assertions of the constructor are pinned by C29_constructor. Exact arithmetic."
 },
 "C30": {
  "status": "partial",
  "note": "Exact arithmetic, all degrees >= 1, all x. Number of cells below 2^31: from there on the int cell index overflows and evaluation is undefined (C30_many_cells)."
 },
 "C31": {
  "status": "proved",
  "note": "Exact arithmetic; more general than strictly increasing break points (inner repetitions allowed)."
 },
 "C34": {
  "status": "partial",
  "note": "Non-uniform: in full. Uniform: number of cells below 2^31; from there on the conversion to int is undefined (C30_many_cells)."
 },
 "C35": {
  "status": "proved",
  "note": "Uniform B-splines are not clamped in the code: their knots continue with the same step; the clamped statement is about non-uniform ones."
 },
 "C32": {
  "status": "partial",
  "note": "Both families: the result lists, for the interval found, the derivatives of the polynomials the B-splines are equal to on it (the polynomial is unique, IsPiece.unique); the derivatives sum to 0; the element returned is that of eval_basis. The non-uniform part is complete; the uniform part requires fewer than 2^31 cells (int cell index, see C30_many_cells). Exact arithmetic."
 },
 "C33": {
  "status": "partial",
  "note": "Uniform: all orders n <= degree, all cells below 2^31. Non-uniform: all orders as long as p!/(p-k)! fits in an int (always for p <= 12); C33_factor_overflow shows the derivatives of order 13 in degree 13 are wrong because the factor is kept in an int. Rows 0 and 1 agree with eval_basis and eval_deriv (C33_rows_agree). Exact arithmetic."
 },
 "C36": {
  "status": "partial",
  "note": "C36_non_uniform, C36_non_uniform_periodic and C36_uniform_periodic cover all degrees, meshes, chunk sizes and orders of execution; C36_uniform_partial needs at least as many cells as the degree (and fewer than 2^31 cells, as eval_basis). Otherwise the code violates the property: C36_few_cells proves undefined behaviour whenever 0 < ncells < degree. Real arithmetic is exact (ordered field)."
 },
 "C37": {
  "status": "partial",
  "note": "C37_uniform, C37_non_uniform (all closures, non-periodic), C37_knots_uniform, C37_knots_uniform_list and C37_knots_non_uniform cover all degrees and all meshes with strictly increasing break points. C37_uniform_greville_partial covers the mixed uniform case for degree at most 8 (and 3 cells above degree 3): C37_uniform_greville_fails proves that the code returns non-increasing points for degree at least 9. C37_non_uniform_periodic_partial needs at least as many cells as the degree: C37_few_cells shows a point outside of the domain and an out-of-bounds read otherwise. C37_knots_count: the knots are as many as the unknowns exactly when the splines are periodic or the degree is odd. Real arithmetic is exact."
 },
 "C38": {
  "status": "proved",
  "note": "All storages nested in any way, all sizes below 2^60, bandwidths, positions and histories of writes. A write of absolute value below 1e-15 out of the band is dropped by the code, as stated by C38_write_outside."
 },
 "C54": {
  "status": "partial",
  "note": "C54_band and C54_blocks cover all sizes that fit in int. C54_periodic_partial holds whenever the numbers of values of the two candidate storages fit in an int (all sizes up to 35000, C54_periodic_small); C54_periodic_overflow proves undefined behaviour in every other case, in particular from size 46341 on."
 },
 "C39": {
  "status": "partial",
  "note": "The solvers of the dense, band, symmetric band, tridiagonal, 2x2 and 3x3 block matrices solve every regular system in place, direct or transposed, in any order of the parallel loops, and the set-up fails exactly for the singular matrices (C39_setup_*). Missing: dense2coo drops entries below 1e-14 of the off-diagonal blocks, so the exact claim excludes such systems (Clean); C39_tiny_entries is a regular system that is not solved. Without that exclusion C39_nearby shows that one matrix within an explicit distance is solved exactly, and C39_coupling_exists that the constant in the bound exists. The external factorisations are exact by contract (satisfiable: exactLapack_exact)."
 },
 "C40": {
  "status": "proved",
  "note": "The chunks are consecutive, cover all columns and fit the buffers; every column is solved and the result does not depend on the size of the chunks, under the contract that the iterative solver returns solutions when it converges. C40_no_column: no column or chunk size zero is a division by zero."
 },
 "C41": {
  "status": "partial",
  "note": "Constructor and operator() modelled with the exact contract of the solvers. Proved: the coefficients interpolate values and derivatives for every degree, mesh, closure, batch and schedule, once the constructor has succeeded (C41_interpolates_partial); without excluding the small entries that the code drops, every condition holds up to an explicit multiple of 1e-14 times the sum of the coefficients (C41_approximates_partial, C41_coupling); the constructor is the set-up of the linear problem with the collocation matrix. The problem is well posed under the conditions of Schoenberg and Whitney, for any degree, simple knots and derivatives at the ends (C41_well_posed). Uniform B-splines of any degree with the Greville points of the code: no hypothesis on the matrix is left (C41_symmetric, C41_greville_partial); the constructor succeeds exactly for well-posed problems and throws otherwise (C41_builds_partial, C41_uniform_partial; tolerance explicit up to degree 6); it always succeeds in a periodic dimension (C41_periodic_partial) and on a bounded interval with any closures (C41_open_partial). Non-uniform B-splines of any degree on a bounded interval: it always succeeds at the Greville points (C41_nonUniform_partial), and for other points under the conditions of Schoenberg and Whitney (C41_general_partial). Non-uniform B-splines in a periodic dimension: the constructor succeeds exactly when the matrix is regular, if the shift fits the points (C41_periodic_general_partial); the matrix is regular for an odd number of cells under the conditions of Schoenberg and Whitney (C41_periodic_well_posed_partial; C41_even_singular: false for even numbers) and for dominant problems (C41_periodic_dominant); with the Greville points it always succeeds up to degree 3 (C41_nonUniform_periodic_partial), and for odd numbers of cells and any degree if compute_offset finds the right shift (C41_nonUniform_odd_partial). Missing: compute_offset finds a wrong shift for some Greville points of degree 4 and 6 (C41_dropped: assertion; C41_negative_offset_greville: undefined behaviour); symmetric storage needs a symmetric matrix (C41_symmetric_storage and C41_knots_even_degree are counterexamples); negative shifts are undefined behaviour (C41_negative_offset); nbasis <= degree in a periodic dimension gives a wrong matrix (C41_few_cells)."
 },
 "C42": {
  "status": "partial",
  "note": "Evaluation: proved for all degrees, meshes, periodic coefficients, x and numbers of periods, in any number of dimensions, exact arithmetic, fewer than 2^31 knots. Coefficients of the builder: under the hypotheses of C41_interpolates_partial (C42_built_partial, which also composes building and evaluating). deriv() is not periodic: outside the domain it fails (C42_deriv_not_periodic)."
 },
 "C44": {
  "status": "partial",
  "note": "1D, 2D, 3D and ND evaluators, all rules, coefficients and x; exact arithmetic. Missing: B-splines with 2^31 knots or more (eval_basis is undefined there, C30_many_cells); the periodic rule's assertion on a string literal always holds, it is never called for a periodic dimension."
 },
 "C45": {
  "status": "partial",
  "note": "All ranks, points, coefficients and derivative requests; exact arithmetic. Missing: B-splines with 2^31 knots or more and, for non-uniform B-splines, derivatives whose factor p!/(p-k)! does not fit in an int (undefined in the code, C33_factor_overflow)."
 },
 "C43": {
  "status": "partial",
  "note": "C43_quadrature_partial: for every data vector, values and boundary derivatives, the sum with the coefficients of quadrature_coefficients is the integral of the interpolating spline, and the coefficients live on the meshes of the data; same hypotheses as C41. Missing because false: homogeneous Hermite closures from degree 2 on (C43_homogeneous: more coefficients than points, shifted) and periodic splines on non-uniform knots with a shift of the unknowns (C43_shift_ignored: concrete case, 5/4 instead of 1). C43_sum says what is computed in all cases. Uniform non-periodic B-splines need at least as many cells as the degree (C36_few_cells)."
 },
 "C55": {
  "status": "partial",
  "note": "C55_integrate_partial: any number of dimensions, any coefficients and schedules. Missing because false: uniform non-periodic B-splines with fewer cells than the degree (C36_few_cells)."
 },
 "C47": {
  "status": "partial",
  "note": "C47_accepts, C47_wrong_count and C47_constructor are complete. C47_rejects_partial: overfull grids are rejected when every cell [t k, t (k+1)) holds a point. The general claim is false: check_valid_grid moves to the next cell only once per point (C47_skipped_cells, C47_missed_end are accepted although overfull; C47_accepted_singular: the problem of the latter has no solution for some data)."
 },
 "C48": {
  "status": "partial",
  "note": "C48_domain, C48_spline, C48_spline_tr describe the domains for all degrees, closures and batch dimensions. C48_passed_back_partial: they can be passed back for odd degrees and for closures other than HERMITE. For even degrees with HERMITE the claim is false: C48_even, C48_even_upper say that the builder aborts. C48_mismatch: a domain that is not the interpolation mesh along the dimension of interest aborts in all five functions."
 },
 "C46": {
  "status": "partial",
  "note": "C46_2d_partial, C46_3d_partial: every pair/triple of conditions (values, derivatives, mixed derivatives) is met, for all closures, degrees, data, batch domains; C46_1d_ignores, C46_2d_ignores, C46_3d_ignores_partial: which boundary data has an influence; C46_batch_rejected: values on another batch domain are refused. Missing: the restrictions of C41 on each 1D builder. For the 3D builder the second half of the claim is false: C46_mixed_not_needed (unneeded mixed derivatives are dereferenced), C46_mixed_rejected (HERMITE along dimension 3 only: never succeeds)."
 },
 "C49": {
  "status": "partial",
  "note": "Fourier meshes, wave numbers, the value of fft and ifft for every normalisation on complex and real data, and their composition, for all shapes and ranks. Partial: the library transforms are assumed exact (Library.Exact, with an instance), numbers are real numbers, wave numbers are proved up to 2^31 points (beyond, C49_space_overflow shows a signed overflow), FULL needs two points per dimension (C49_full_one_point shows the division by zero)."
 },
 "C50": {
  "status": "proved",
  "note": "For every array whose byte size does not overflow: the bytes decode, with a reader of format version 1.0 written independently (magic, version, length field, alignment, Python dictionary in any key order, data), to the type, order flag, shape and exactly the data; throw iff no 16-bit aligned header length has room for the dictionary. For chunks on contiguous, strided and sparse domains of any layout and memory space the data are the values in lexicographic order of the elements. Not modelled: failures of the stream or file system (the ostream overload does not report them), bit representation of a scalar (an arbitrary fixed-size encoding)."
 },
 "C51": {
  "status": "proved",
  "note": "For contiguous, strided and sparse domains of every rank, layout and memory space and all valid options: the text of print_content is the one of an independent specification (every entry of a dimension shorter than the threshold, otherwise the first and last edgeitems, in order, right-justified to the longest shown text); every access succeeds, so none is out of range (out of range is ub in the model). C51_options: the invariant holds after every sequential history from the default. print and print_full (restores the options) are covered. C51_race: set_print_options reads the old options outside the lock, so under concurrency the returned value can be the temporary options of print_full. Not modelled: formatting of one scalar (an arbitrary function), demangling of the type name."
 },
 "C52": {
  "status": "proved",
  "note": "For all sequences of with() calls (all overloads, explicit and deduced access) interleaved with ends of lives of caller objects: accepted iff the static_asserts hold; trace = shares, one event, one reclaim per share in order, then destruction of the copies; shares are exactly the expected ones with copies (rank, extents, sizes, read-only arithmetic values) holding the values at the call. C52_cstring_dangles: C strings are shared by address (observation). Not modelled: PDI's return codes (ignored by the code), out of memory."
 },
 "C53": {
  "status": "partial",
  "note": "All of tagged_vector.hpp and coordinate.hpp for arbitrary element types and operations (so rounding included): +, -, unary, scalar multiples, compound assignments (also with itself), merge constructor, select, ==, !=, printing, coordinates of several dimensions; independence of tag order C53_order. Partial because += and -= of a scalar take it by reference: C53_scalar_alias shows v += v.get<X>() is not tag-wise; C53_assign_scalar_partial covers the other cases. == is asymmetric for sub-packs (C53_eq_missing)."
 },
 "C56": {
  "status": "partial",
  "note": "Access, assignment, swap, apply, comparison on totally ordered components the category of the comparison (C56_category) and the order of the rules are proved for every size. The code violates the rest of the claim: C56_eq_incomparable and C56_eq_needs_less (== goes through <=> or <, unlike nvcc's), C56_cat_moves_lvalues (tuple_cat moves from non-const lvalues); C56_cat gives the exact effect under the weakest condition on repeated objects. Component conversions, reference components and constexpr/no_unique_address layout are not modelled."
 },
 "C57": {
  "status": "partial",
  "note": "All functions of math_tools.hpp modelled; double is a field, except in modulo where every operation is followed by a rounding (relative error 2^-53, exact on 53-bit integers; round53 is such a rounding). Proved for all inputs: sum, dot_product, ipow, min, max; modulo on int, with the rounding. Missing because false in the code: factorial is exact only up to 20 (C57_factorial_wraps; it is the factorial modulo 2^64, and 1 for the largest argument); ipow of the smallest int is undefined (C57_ipow_min); modulo on ptrdiff_t beyond 53 bits (C57_modulo_large)."
 },
 "C58": {
  "status": "partial",
  "note": "Construction of the uniform knots, get_icell_and_offset, find_cell_start and the periodic wrap modelled with a rounding after every operation (no overflow, no contraction). Proved for every rounding: uniform B-splines give 0 <= cell <= ncells, 0 <= offset <= 1, an explicit bound on the error of the position, and cell < ncells away from the upper bound; non-uniform B-splines always find the cell that contains the coordinate; a coordinate within 16 periods is wrapped without violating the assertions. Missing because false in the code: cell < ncells next to the upper bound (C58_past_the_end: cubic splines on 10 cells of [0, 3.1] at x = 3.1 use the cell 10), coordinates far away (C58_far_aborts)."
 },
 "C59": {
  "status": "partial",
  "note": "Greville points modelled with a rounding after every operation: the uniform sampling of uniform B-splines, the points of uniform B-splines with GREVILLE closures at one or both edges, and non-uniform B-splines, periodic or not. Proved for every rounding: the points are sorted (so that the sampling accepts them), explicit bounds on their errors, and they are located in a cell by the B-splines; for uniform B-splines and periodic ones this needs rounding to nearest. Missing because false in the code: non-uniform domains far from the origin (C59_aborts), and uniform ones with GREVILLE closures (C59_edges_abort); cell < ncells for the last uniform point (C59_uniform_past_the_end, C59_edges_past_the_end); periodic cells of a few units in the last place (C59_periodic_throws). Points at the edges: degrees up to 8, and at least 3 cells beyond degree 3, as in C37. C59_selected: the points selected for HERMITE closures on non-uniform B-splines are consecutive ones of these, as many as there are B-splines without the derivatives given at the ends."
 },
 "C60": {
  "status": "partial",
  "note": "eval_basis of uniform and non-uniform B-splines modelled with a rounding after every operation. Proved for every rounding and every coordinate of the domain: values are not negative, sum to 1 up to 6 p 2^-53, total error at most 9 p 2^-53 and relative error of every value at most 8 p 2^-53 for non-uniform B-splines whatever the break points; for uniform B-splines p (p + 13) 2^-53 + p (n + 1) 2^-49 with respect to the position in units of the step. Missing because false in the code: for uniform B-splines next to the upper bound, the last B-spline listed may not exist (C60_past_the_end). C60_non_uniform is for clamped B-splines; C60_periodic_non_uniform covers the periodic ones, whose constructor computes knots outside of the domain with rounding, when the first and the last cells are not smaller than 2^-53 periods; otherwise the constructor can throw (C60_tiny_cell_throws)."
 },
 "C61": {
  "status": "partial",
  "note": "eval_no_bc in one dimension with rounding. Proved for every rounding: error at most (11 p + 3) 2^-53 times the largest coefficient for non-uniform B-splines; for uniform B-splines the same kind of bound or, within a relative distance 2^-50 of the upper bound, an out-of-bounds read, which does occur (C61_past_the_end: the evaluation of cubic splines on 10 cells of [0, 3.1] at 3.1). C61_periodic_partial covers the evaluator of periodic uniform splines: the result is the value, with the same error, at a point of the domain equal to the coordinate up to a multiple of the period and 2^-45 periods (for coordinates within 16 periods of the domain). C61_periodic_non_uniform_partial: the same for non-uniform splines, without out-of-bounds read; there the accuracy is not stated when the wrapped coordinate falls outside of the domain by less than 2^-46 periods. Beyond the ends of a domain that is not periodic the result is that of the rule of that end. Derivatives: C67."
 },
 "C62": {
  "status": "partial",
  "note": "init, init_ghosted, coordinate, rmin, rmax, rlength of uniform samplings and init, init_ghosted, coordinate of periodic samplings modelled with a rounding after every operation and conversion. Proved for every rounding: first point exactly a, sorted, explicit error bounds, distinct points above the resolution, exact periodicity. C62_last: the last point can exceed b (12 points of [0, 0.1]); C62_ghosted_first: with ghosts the first point of the main domain may differ from a; C62_coincide: points closer than the resolution coincide. C62_periodic_ghosted: init_ghosted of a periodic sampling. Missing: periods above 2^31 and indices near 2^64 (false, C29)."
 },
 "C63": {
  "status": "partial",
  "note": "eval_no_bc in two, three and any number of dimensions, on any mix of uniform and non-uniform B-splines, with rounding. Proved for every rounding: no out-of-bounds read and error at most 5/4 (P + D) 2^-53 + 17/16 (sum of the precisions of C60 in each dimension) times the largest coefficient, P the number of products and D the number of dimensions, P at most 2^40. Missing: the coordinates at a relative distance less than 2^-50 of the upper end of a uniform dimension, where a coefficient out of bounds may be read (C61_past_the_end). Derivatives: C71. Extrapolation and periodic coordinates: C72."
 },
 "C64": {
  "status": "partial",
  "note": "All schedules, any operation: C64_any_plan, C64_host, C64_any_scan (each element combined once, scans in order) and C64_min_max, C64_integers in full. The error bounds are partial: roundings to nearest with 53 bits and an unbounded exponent (no overflow, underflow or NaN), transformed values representable, host reduction started from zero. C64_schedules_differ: two plans that give different results with the rounding of IEEE 754."
 },
 "C65": {
  "status": "partial",
  "note": "eval_deriv of uniform and non-uniform B-splines modelled with a rounding after every operation. Full statement for non-uniform B-splines, clamped (C65_non_uniform) and periodic with first and last cells of at least 2^-53 periods (C65_periodic_non_uniform). C65_uniform_partial: degree at least 2, errors of the derivatives times the step add up to at most 2 p (p + 11) 2^-53 + p (n + 1) 2^-48, with respect to the position in units of the step. C65_uniform_degree_one_partial: degree 1, the slopes of the cell the code uses, that contains the coordinate up to (n + 1) 2^-50 steps. Missing: the number of the first B-spline next to the upper bound (C60_past_the_end). eval_basis_and_n_derivs is in C67."
 },
 "C66": {
  "status": "partial",
  "note": "Every schedule of the host and the instances gives the synchronous result, without deadlock, for all the functions listed, called with kernels of earlier calls still waiting. Buffers are not split into elements. The theorems assume that kokkos_free waits for the kernels (C66_needs_waiting_free shows that the builder needs it) and, for setup_solver, that kernels on the host space have run when they are launched (C66_schur_needs_synchronous_host shows what happens otherwise: the code has no fence there). C66_evaluator_returns_early: a fence is needed before the host reads the result of an evaluator."
 },
 "C67": {
  "status": "partial",
  "note": "eval_basis_and_n_derivs of uniform and non-uniform B-splines and deriv of the one-dimensional evaluator modelled with a rounding after every operation. C67_non_uniform_partial and C67_periodic_non_uniform_partial: full statement for non-uniform B-splines, clamped and periodic (first and last cells of at least 2^-53 periods), as long as the factors p!/(p-k)! are of type int (all degrees up to 12; otherwise C33_factor_overflow). C67_uniform_partial: at a point that is the position in units of the step up to (n + 1) 2^-50. C67_spline_non_uniform_partial, C67_spline_periodic_non_uniform_partial, C67_spline_uniform_partial: derivatives of splines. Missing: the number of the first B-spline next to the upper bound (C60_past_the_end). Several dimensions: C71."
 },
 "C68": {
  "status": "partial",
  "note": "Refinement of a specification without device for all well-scoped histories with nested initialisations and successful copies: host and device attributes agree, buffers are owned, alive and released once. False otherwise: kernels read zeros, stale scalars or released points of dimensions that are not initialised, and a failed copy throws although the host is initialised (witnesses)."
 },
 "C69": {
  "status": "proved",
  "note": "Every floating-point operation is followed by an arbitrary rounding with relative error 2^-53 (no overflow or underflow, no fused multiply-add). Non-uniform, not periodic: entries and their sum with relative error 4*2^-53. Non-uniform, periodic: the same with respect to the computed knots, sum with respect to the period with the rounding errors of the knots. Uniform: entries in units of the computed step, error 0 inside and (p+2)(p+18)*2^-53 at the ends, p <= number of cells (otherwise C36_few_cells). integrate: one dimension, not periodic, one element of the batch domain, fewer than 2^39 coefficients (non-uniform) or 2^31 cells (uniform). Integrals are those of C36 and C43 (antiderivatives of the pieces); all orders of the parallel loops."
 },
 "C70": {
  "status": "partial",
  "note": "Every floating-point operation is followed by an arbitrary rounding with relative error 2^-53 (to nearest for the uniform points; no overflow or underflow, no fused multiply-add). Non-uniform, not periodic, closures GREVILLE: increasing break points, points of the domain that away from the ends are between the inner knots of their B-spline; residual form for the evaluator and for the exact spline; corollary for the computed Greville points when the first and last ones are in the domain and cells are wider than the rounding errors. Uniform periodic: even degrees, odd degrees from 3 on when the two largest values are farther apart than the errors (proved for degree 3), 35000 cells at most (C54_periodic_overflow). Degree 1: the negation, with a witness. Not with rounding: Hermite rows, non-uniform periodic, the factorization and the solution of the system (LAPACK)."
 },
 "C71": {
  "status": "partial",
  "note": "eval_no_bc in two, three and any number of dimensions with any orders of derivation in any of the dimensions, on any mix of uniform and non-uniform (periodic ones included) B-splines, with a rounding after every operation. Error at most 5/4 (P + D) 2^-53 + 17/16 (sum of the precisions in each dimension) times the largest coefficient and the product of the bounds of the derivatives, P the number of products (at most 2^40), D the number of dimensions. Missing: the coordinates at a relative distance less than 2^-50 of the upper end of a uniform dimension, where a coefficient out of bounds may be read (C61_past_the_end); factors p!/(p-k)! that are not of type int."
 },
 "C72": {
  "status": "partial",
  "note": "eval of the evaluators in one, two, three and any number of dimensions and the constant extrapolation rules with a rounding after every operation. C72_dispatch_*: which rule applies and to which coordinates, full statement. C72_constant_*: constant extrapolation is the evaluation at the closest point, as an equality of results. C72_nd_partial, C72_2d_partial, C72_3d_partial: accuracy without extrapolation; missing there: the coordinates excluded in C63 and those that are reduced to a coordinate just outside of the domain of non-uniform periodic B-splines. Periodic coordinates within 16 periods of the domain (C58_far_aborts)."
 },
 "C73": {
  "status": "partial",
  "note": "integrate of the evaluators in any number of dimensions with rounding: iterated integral up to an explicit error, for both orders of the products and all schedules. Missing: uniform B-splines that are not periodic with fewer cells than the degree (ddc::integrals is wrong there, C36_few_cells) and periodic non-uniform B-splines with fewer cells than the degree."
 },
 "C74": {
  "status": "proved",
  "note": "setup_solver and solve of the direct linear problems with rounding: every right-hand side is replaced by a vector with a residual at most Solver.residual times the sum of its absolute values, for all matrices, direct or transposed, all schedules. The external factorisations enter by the contract Lapack.Backward (a residual bound; a hypothesis, satisfiable: oneLapack_backward, and exact solvers). The bound mentions the column sums of the computed Q^-1 gamma, which exist (C74_bound_exists); there is no bound in terms of the matrix only. Rounding without overflow and underflow; not the iterative solver. C74_exact: without rounding it is the model of C39."
 },
 "C75": {
  "status": "partial",
  "note": "Non-uniform, not periodic B-splines with closures GREVILLE, and uniform periodic B-splines at their Greville points on at most 35000 cells (even degrees: C75_uniform_even_partial; odd degrees above one under a gap of the computed points to the knots: C75_uniform_odd_partial; cubic: C75_cubic_partial; degree one aborts, C70_degree_one_aborts). Any rounding with relative error 2^-53 (no overflow or underflow, no fused multiply-add), external solvers by the contract Lapack.Backward (satisfiable: idLapack_backward, cramerLapack_backward, oneLapack_backward, exact solvers). Once constructed (C75_constructs, uniform_constructs: fails only if the factorisation does), operator() gives coefficients whose spline, exact or as evaluated with rounding, takes the data up to N * residual + O(p 2^-53) times the largest coefficient; for cubic periodic splines with a small residual the coefficients are at most four times the data and the errors are relative to the data (C75_cubic_stable_partial). Not: Hermite closures, uniform not periodic, non-uniform periodic B-splines, points outside their inner knots, a bound of the distance to the exact coefficients."
 },
 "C76": {
  "status": "proved",
  "note": "Model of main of uniform_heat_equation.cpp over an ordered field, every order of the iterations and assignments: C76_uniform (ends without abort or undefined behaviour, temperatures of M steps of the torus scheme), C76_stable (the steps cover the time interval, 2cx + 2cy <= 1), C76_maximum, C76_conservation. Exact arithmetic; display left out; the torus has n points at distance (end - start)/(n - 1)."
 },
 "C77": {
  "status": "partial",
  "note": "heat_equation.cpp gives the temperatures of C76 (C77_uniform). non_uniform_heat_equation.cpp: values, safety, number of steps (C77_non_uniform) and bounds (C77_maximum) for all parameters, displacements and schedules. C77_conservation_partial: the heat is the same at the end when the first and the last distance agree along each dimension; without this the claim is false (C77_not_conserved), and end points identified by the ghost coordinates get different temperatures (C77_not_periodic). Exact arithmetic, random numbers are a parameter, display left out."
 },
 "C78": {
  "status": "proved",
  "note": "main for every board of two by two cells or more and every number of rounds, all schedules: C78_generations, C78_blinker; the loop from any board: C78_any_board. The text printed is that of C51 on the recorded memory."
 },
 "C79": {
  "status": "partial",
  "note": "Real numbers and an exact Fourier library; from 2 to 2^31 points per dimension. The time that the steps advance by is the interval only when it is a multiple of the step (C79_time_partial); C79_overrun shows that the rest of this part of the claim is false."
 },
 "C80": {
  "status": "proved",
  "note": "Model of main of characteristics_advection.cpp over an ordered field, both values of PERIODIC_DOMAIN, all schedules: C80_advects (ends, initial density, each step is spline interpolation at the feet of the characteristics), C80_time, C80_too_many_steps and C80_too_negative (a count of steps that does not fit is undefined). Periodic: C80_mass, C80_energy, C80_shift for the whole run, with explicit tolerances (the builder drops entries below 1e-14). Exact arithmetic; exact external solvers; display left out."
 },
 "C81": {
  "status": "partial",
  "note": "Every history for element types without destructor, alignments that are powers of two and multiples of alignof (C81_history_partial, C81_start, C81_released); C81_power_of_two: other alignments are undefined. For types with a destructor the claim is false in the Itanium ABI: C81_destructor, C81_not_aligned. C81_equal: comparison. C81_assignment: the converting assignment is undefined behaviour. operator new[] by contract (GivenOut)."
 },
 "C82": {
  "status": "partial",
  "note": "main of characteristics_advection.cpp (periodic, as the file is) with any rounding to nearest of relative error 2^-53 (no overflow or underflow, no fused multiply-add), external solvers by the contract Lapack.Backward, all schedules. C82_advects_partial: if no foot is rounded to just below the upper end (FeetInside), main ends and each step advects each line up to 4 kappa (the error of the builder, C75, at most 1/12) and n 2^-35. C82_reads_outside: otherwise main reads a coefficient past the end; C82_past_the_end: sound parameters for which it does, so the claim is false in general; C82_inside: it does not when the displacement is not within n 2^-42 of whole cells; C82_example: nor for the constants of the program. C82_time; for every run that ends: C82_energy, C82_mass, C82_shift, C82_returns."
 },
 "C83": {
  "status": "proved",
  "note": "Model of main of uniform_heat_equation.cpp with a rounding after every operation (the time loop is the one of C76 with the rounded addition and increments). C83_uniform: ends, number of steps, coordinates of the points, temperatures near those of the exact scheme, maximum principle, all with explicit tolerances; C83_conservation; C83_steps: when the number of steps is the exact one; C83_example: the constants of the program; C83_step_count: numbers of steps that do not fit are undefined. C83_overshoot: without a tolerance the maximum principle is false (3 + 2^-51 from temperatures 0 and 3). No overflow and no underflow (unbounded exponents); display left out."
 },
 "C84": {
  "status": "proved",
  "note": "Model of main of heat_equation.cpp and non_uniform_heat_equation.cpp with a rounding after every operation (the time loop is that of C76 and C77). C84_uniform: the conclusions of C83 for the program that computes with distances; C84_conservation: with equally spaced points the sum of the temperatures is conserved up to the tolerance; C84_example: the constants of the program. C84_non_uniform: ends, points and distances near the exact ones, number of steps, temperatures near those of the exact scheme with the computed distances, maximum principle, with explicit tolerances. C84_unresolved: without the hypothesis on the distance between points the number of steps is undefined. The random generator is any sequence of displacements; no overflow and no underflow (unbounded exponents); display left out; a zero product of distances is undefined in the model where the code has an infinite maximum that makes the later conversion undefined."
 },
 "C85": {
  "status": "partial",
  "note": "Coefficients of FULL, fft and ifft on complex and real data for all normalisations, their composition, and wave numbers, with every operation of DDC rounded, for all ranks, sizes and data. Contracts: the transforms of Kokkos-FFT are accurate to a tolerance eta (FFTLibrary.Accurate, with an instance for every positive eta), Kokkos::sqrt to one rounding (with an instance). Partial: wave numbers up to 2^31 points (C49_space_overflow), meshes that are resolved (C85_unresolved shows a division by zero otherwise), single precision, overflow and underflow not modelled."
 },
 "C86": {
  "status": "partial",
  "note": "The spectral heat equation with every operation rounded: termination, number of steps, points, temperatures against exact arithmetic in the Euclidean norm, growth, conservation, and the constants of the program. Contract: the Fourier library is accurate to a tolerance eta (C85). Partial: 2 to 2^31 points per dimension, at most 2^49 steps, domains at most 2^20 times their length away from the origin; overflow and underflow not modelled; the display is not modelled. C86_overrun shows that the steps go beyond the end of the interval."
 },
 "C87": {
  "status": "proved",
  "note": "Model of the output loop shared by the five example programs in time (step, displays and exchange are parameters), of display, and of main of all five programs with its output. C87_schedule: exactly the states 0, P, 2P, ... and N are shown, in order, for any invariant-preserving step and exchange. C87_heat, C87_distances, C87_non_uniform: the records shown (time, mean, slice index, line of temperatures) are those of the scheme, whatever the orders, and the program ends as without its output (C76, C77). C87_spectral: the same for heat_equation_spectral.cpp, the states given by their modes (C79). C87_advection: the same for characteristics_advection.cpp, each state related to the one before as in C80. C87_mean, C87_spectral_mean: the mean shown by the two uniform programs and the spectral one is the initial one; C87_advection_mean: that of the periodic advection up to 8 k n W / 10^12. C87_ends: first and last time, strictly increasing times. C87_spectral_time: the time shown by the spectral program is before the one its steps have reached, except when they divide the interval. Exact arithmetic; the host copy before each display is left out (copies are C18) and the text is C51."
 },
 "C88": {
  "status": "proved",
  "note": "The mean in display of the five time-stepping examples with a rounding after every operation: error bound ((1+2^-53)^n-1) times the mean of the absolute values, bounds between extreme values, sign, and the witness that the mean of equal values can exceed them (C88_above). C88_heat and C88_distances follow uniform_heat_equation.cpp and heat_equation.cpp from the initial temperatures to the mean shown at the end; C88_example has the constants of the first. The exponent is not bounded; the empty domain is a division by zero (C88_empty)."
 }
}