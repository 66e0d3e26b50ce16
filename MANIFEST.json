{
 "claims": [
  {
   "property": "C01",
   "status": "proved",
   "theorems": [
    "DDC.Props.C01_present",
    "DDC.Props.C01_rank",
    "DDC.Props.C01_rank_element",
    "DDC.Props.C01_remove",
    "DDC.Props.C01_merge",
    "DDC.Props.C01_merge_set",
    "DDC.Props.C01_replace",
    "DDC.Props.C01_decisions",
    "DDC.Props.C01_cat"
   ],
   "note": "Type-sequence metafunctions over lists of tags, all packs."
  },
  {
   "property": "C02",
   "status": "proved",
   "theorems": [
    "DDC.Props.C02_select",
    "DDC.Props.C02_ctor",
    "DDC.Props.C02_roundtrip",
    "DDC.Props.C02_get_or",
    "DDC.Props.C02_eq",
    "DDC.Props.C02_eq_equiv",
    "DDC.Props.C02_eq_perm",
    "DDC.Props.C02_eq_subpack_asymmetric"
   ],
   "note": "Constructor, select, get_or and comparison are independent of tag order; comparison with a strictly larger right pack is shown asymmetric."
  },
  {
   "property": "C03",
   "status": "proved",
   "theorems": [
    "DDC.Props.C03_add_exact",
    "DDC.Props.C03_sub_exact",
    "DDC.Props.C03_diff_exact",
    "DDC.Props.C03_cancel",
    "DDC.Props.C03_add_diff",
    "DDC.Props.C03_diff_add",
    "DDC.Props.C03_add_comm",
    "DDC.Props.C03_inc_dec",
    "DDC.Props.C03_order",
    "DDC.Props.C03_reference"
   ],
   "note": "Element arithmetic on 64-bit indices; exact when in range, modulo 2^64 otherwise."
  },
  {
   "property": "C04",
   "status": "partial",
   "theorems": [
    "DDC.Props.C04_add",
    "DDC.Props.C04_neg",
    "DDC.Props.C04_smul",
    "DDC.Props.C04_assign",
    "DDC.Props.C04_sub_partial",
    "DDC.Props.C04_sub_not_exact",
    "DDC.Props.C04_group",
    "DDC.Props.C04_scalar"
   ],
   "note": "Signed vector arithmetic with undefined behaviour as outcome. C04_sub_partial needs the right operand to be negatable when the left pack is smaller; C04_sub_not_exact exhibits the excluded case in the code."
  },
  {
   "property": "C05",
   "status": "partial",
   "theorems": [
    "DDC.Props.C05_ctor",
    "DDC.Props.C05_contains",
    "DDC.Props.C05_size",
    "DDC.Props.C05_front_back",
    "DDC.Props.C05_size_wraps"
   ],
   "note": "Contiguous domains on 64-bit bounds: constructor, contains, size, front/back agree with the product of integer ranges. The size claim holds modulo 2^64; C05_size_wraps shows the code returning size 0 and empty() for a non-empty domain when the product overflows."
  },
  {
   "property": "C06",
   "status": "proved",
   "theorems": [
    "DDC.Props.C06_take_first",
    "DDC.Props.C06_take_last",
    "DDC.Props.C06_remove_first",
    "DDC.Props.C06_remove_last",
    "DDC.Props.C06_remove",
    "DDC.Props.C06_partition",
    "DDC.Props.C06_strided_take_first",
    "DDC.Props.C06_strided_take_last",
    "DDC.Props.C06_strided_remove_first",
    "DDC.Props.C06_strided_remove_last",
    "DDC.Props.C06_strided_remove",
    "DDC.Props.C06_strided_partition"
   ],
   "note": "take/remove first/last of contiguous and strided domains split the index sets for all admissible counts (in range). The sparse members do not compile when instantiated and are out of the model."
  },
  {
   "property": "C07",
   "status": "proved",
   "theorems": [
    "DDC.Props.C07_position_to_element",
    "DDC.Props.C07_element_to_position",
    "DDC.Props.C07_ends",
    "DDC.Props.C07_strided_position_to_element",
    "DDC.Props.C07_strided_element_to_position",
    "DDC.Props.C07_strided_assert",
    "DDC.Props.C07_strided_ends",
    "DDC.Props.C07_sparse_position_to_element",
    "DDC.Props.C07_sparse_out_of_range",
    "DDC.Props.C07_sparse_element_to_position",
    "DDC.Props.C07_sparse_ends"
   ],
   "note": "Positions and elements are in bijection for contiguous, strided (positive strides, past-the-end index representable) and sparse (sorted) domains; abort or undefined behaviour outside."
  },
  {
   "property": "C08",
   "status": "partial",
   "theorems": [
    "DDC.Props.C08_eq_iff",
    "DDC.Props.C08_eq_equiv",
    "DDC.Props.C08_eq_wraps",
    "DDC.Props.C08_strided_eq_partial",
    "DDC.Props.C08_strided_eq_iff",
    "DDC.Props.C08_strided_eq_stride",
    "DDC.Props.C08_sparse_eq_iff"
   ],
   "note": "Contiguous and sparse: == iff same points (sizes not wrapping). Strided: == iff same points and, when non-empty, same strides; iff same points when all extents are >= 2; C08_strided_eq_stride exhibits the disagreement of the code for extent 1, C08_eq_wraps the one for wrapping sizes."
  },
  {
   "property": "C09",
   "status": "proved",
   "theorems": [
    "DDC.Props.C09_assertion",
    "DDC.Props.C09_intersection",
    "DDC.Props.C09_idempotent"
   ],
   "note": "restrict_with: aborts exactly outside its documented precondition, otherwise computes the set intersection, idempotent."
  },
  {
   "property": "C10",
   "status": "proved",
   "theorems": [
    "DDC.Props.C10_product_wf",
    "DDC.Props.C10_product",
    "DDC.Props.C10_select",
    "DDC.Props.C10_remove_dims",
    "DDC.Props.C10_recompose",
    "DDC.Props.C10_replace_dim",
    "DDC.Props.C10_free_functions",
    "DDC.Props.C10_strided",
    "DDC.Props.C10_sparse",
    "DDC.Props.C10_sparse_product",
    "DDC.Props.C10_strided_product",
    "DDC.Props.C10_strided_free",
    "DDC.Props.C10_sparse_free",
    "DDC.Props.C10_strided_bool",
    "DDC.Props.C10_sparse_views"
   ],
   "note": "Products, projections, removal and replacement of dimensions of contiguous, strided and sparse domains, for all factors, and the free accessors of the three kinds."
  },
  {
   "property": "C11",
   "status": "partial",
   "theorems": [
    "DDC.Props.C11_enumerates",
    "DDC.Props.C11_index",
    "DDC.Props.C11_difference",
    "DDC.Props.C11_end_begin",
    "DDC.Props.C11_advance",
    "DDC.Props.C11_inc_dec",
    "DDC.Props.C11_strided_enumerates",
    "DDC.Props.C11_strided_difference_partial",
    "DDC.Props.C11_strided_difference_wrong",
    "DDC.Props.C11_strided_advance",
    "DDC.Props.C11_strided_inc_dec",
    "DDC.Props.C11_sparse_enumerates"
   ],
   "note": "Random access iterator laws for contiguous, strided and sparse domains, with the undefined cases of the code stated. C11_strided_difference_wrong: the difference of strided iterators is not divided by the stride, so end - begin is not the size."
  },
  {
   "property": "C12",
   "status": "proved",
   "theorems": [
    "DDC.Props.C12_contiguous",
    "DDC.Props.C12_strided",
    "DDC.Props.C12_sparse",
    "DDC.Props.C12_sparse_unsorted",
    "DDC.Props.C12_rank0"
   ],
   "note": "Serial loops equal the fold of the functor over a duplicate-free, lexicographically sorted list of exactly the contained elements, for all three kinds of domains, any rank and any effectful functor."
  },
  {
   "property": "C13",
   "status": "partial",
   "theorems": [
    "DDC.Props.C13_contains_partial",
    "DDC.Props.C13_empty_contains_front",
    "DDC.Props.C13_size",
    "DDC.Props.C13_front_back",
    "DDC.Props.C13_zero_stride"
   ],
   "note": "Strided membership equals membership in the product of progressions for non-empty axes or empty ones with front + 1 >= stride; C13_empty_contains_front exhibits an empty domain that contains its front, C13_zero_stride the undefined stride 0."
  },
  {
   "property": "C14",
   "status": "proved",
   "theorems": [
    "DDC.Props.C14_size",
    "DDC.Props.C14_search_total",
    "DDC.Props.C14_search",
    "DDC.Props.C14_contains",
    "DDC.Props.C14_distance"
   ],
   "note": "lower_bound/binary_search: total on every array, exact on strictly increasing ones; contains, distance_from_front, size."
  },
  {
   "property": "C15",
   "status": "proved",
   "theorems": [
    "DDC.Props.C15_chunk",
    "DDC.Props.C15_chunk_strided",
    "DDC.Props.C15_chunk_sparse",
    "DDC.Props.C15_left",
    "DDC.Props.C15_left_strided",
    "DDC.Props.C15_left_sparse",
    "DDC.Props.C15_read_after_write",
    "DDC.Props.C15_mdspan",
    "DDC.Props.C15_wraps"
   ],
   "note": "Contiguous, strided and sparse supports of any rank with fewer than 2^64 elements, layout_right allocation by Chunk and layout_left views; access by elements (any order and grouping), by displacement, and outside the domain (assertion). C15_wraps: with 2^64 elements or more the size wraps and the allocation is too small. mdspan is modelled by its contract."
  },
  {
   "property": "C16",
   "status": "proved",
   "theorems": [
    "DDC.Props.C16_slice",
    "DDC.Props.C16_slice_sparse",
    "DDC.Props.C16_slice_strided",
    "DDC.Props.C16_restrict",
    "DDC.Props.C16_restrict_outside",
    "DDC.Props.C16_negative_displacement",
    "DDC.Props.C16_empty_outside"
   ],
   "note": "Spans of any rank on contiguous, strided and sparse domains, any strided mapping that stays in its allocation: slices by elements and displacements, nesting, restriction to subdomains, assertions. C16_negative_displacement and C16_empty_outside show two inputs the assertions let through to an invalid submdspan call. submdspan is modelled by its contract."
  },
  {
   "property": "C17",
   "status": "proved",
   "theorems": [
    "DDC.Props.C17_step",
    "DDC.Props.C17_linear",
    "DDC.Props.C17_no_leak",
    "DDC.Props.C17_defined",
    "DDC.Props.C17_values_step",
    "DDC.Props.C17_values",
    "DDC.Props.C17_labels",
    "DDC.Props.C17_sizes",
    "DDC.Props.C17_sizes_strided",
    "DDC.Props.C17_sizes_sparse",
    "DDC.Props.C17_room",
    "DDC.Props.C17_bytes_wrap",
    "DDC.Props.C17_self_move"
   ],
   "note": "All histories of construction (including failing and null allocations), move, move assignment, swap, element writes and destruction, on any support kind: linear ownership, refinement to values, no undefined step, nothing left at the end, and the label follows the allocation (C17_labels). Self-move loses the contents (C17_self_move); the byte count wraps (C17_bytes_wrap). kokkos_malloc/kokkos_free by contract."
  },
  {
   "property": "C18",
   "status": "proved",
   "theorems": [
    "DDC.Props.C18_contiguous",
    "DDC.Props.C18_strided",
    "DDC.Props.C18_sparse",
    "DDC.Props.C18_kokkos_roundtrip",
    "DDC.Props.C18_kokkos_padded",
    "DDC.Props.C18_view_other_space",
    "DDC.Props.C18_empty_extents"
   ],
   "note": "All three kinds of domains, all layouts, every order of the assignments; Kokkos::deep_copy by contract. C18_view_other_space: view variants alias the source as soon as it is accessible, also in another space (documented). C18_empty_extents: empty domains of different extents pass the assertion but deep_copy throws. Fences/streams not modelled."
  },
  {
   "property": "C19",
   "status": "proved",
   "theorems": [
    "DDC.Props.C19_schedule",
    "DDC.Props.C19_all_orders",
    "DDC.Props.C19_independent",
    "DDC.Props.C19_parallel_transform",
    "DDC.Props.C19_interleaving",
    "DDC.Props.C19_interleaving_ends",
    "DDC.Props.C19_interleaving_progress",
    "DDC.Props.C19_race_free",
    "DDC.Props.C19_transform_interleaving",
    "DDC.Props.C19_racy"
   ],
   "note": "Every schedule is a permutation of the elements of the domain (any of the three kinds, any rank); independent functors and parallel_transform end in the memory of the sequential loop. C19_interleaving strengthens this from whole iterations to interleavings of single memory accesses: if each iteration touches only its own cells and read-only cells, every interleaving ends (C19_interleaving_ends), can always go on (C19_interleaving_progress), has no data race (C19_race_free) and leaves the memory of the host loop; C19_racy is the lost update when the hypothesis fails. Single accesses are atomic; Kokkos is trusted to run each iteration of the policy once. parallel_fill is a Kokkos::deep_copy (Model/Copy, C18)."
  },
  {
   "property": "C20",
   "status": "partial",
   "theorems": [
    "DDC.Props.C20_blocks",
    "DDC.Props.C20_blocks_strided",
    "DDC.Props.C20_distribute",
    "DDC.Props.C20_not_power",
    "DDC.Props.C20_total_partial",
    "DDC.Props.C20_total_strided_partial",
    "DDC.Props.C20_total_terminates",
    "DDC.Props.C20_overflow",
    "DDC.Props.C20_empty_dimension"
   ],
   "note": "Contiguous and strided domains of any rank, any counts >= 1: exact partition into balanced blocks, in a fixed order. Total version: C20_total_partial asks for extents below 2^62 and allows one block in an empty dimension; C20_overflow and C20_empty_dimension show both restrictions are needed by this code. Unsuitable totals throw inside a noexcept function, so the program terminates (C20_total_terminates). Sparse domains do not compile with this algorithm."
  },
  {
   "property": "C21",
   "status": "proved",
   "theorems": [
    "DDC.Props.C21_host",
    "DDC.Props.C21_order",
    "DDC.Props.C21_empty",
    "DDC.Props.C21_sum",
    "DDC.Props.C21_rank0",
    "DDC.Props.C21_noexcept"
   ],
   "note": "Any monoid, any rank and kind of domain; order of combination for non-commutative reductions; rank 0 ignores neutral."
  },
  {
   "property": "C22",
   "status": "partial",
   "theorems": [
    "DDC.Props.C22_any_plan",
    "DDC.Props.C22_unsigned",
    "DDC.Props.C22_sum",
    "DDC.Props.C22_neutral_ignored"
   ],
   "note": "Every plan (tree of private accumulators over any permutation of the iterations) gives the host result started from the Kokkos identity. The part of the statement about the user-provided neutral is false for this code: C22_neutral_ignored. Exact arithmetic (integers modulo 2^w, commutative semirings); Kokkos reducers are given by their contract."
  },
  {
   "property": "C23",
   "status": "partial",
   "theorems": [
    "DDC.Props.C23_scan",
    "DDC.Props.C23_unsigned",
    "DDC.Props.C23_exclusive_in_place"
   ],
   "note": "Whole batched algorithm for every cut in blocks and every order of the second pass. The exclusive scan needs a functor that does not read its own output cell (C23_exclusive_in_place shows the failure) and starts from the Kokkos identity, there is no init argument."
  },
  {
   "property": "C24",
   "status": "proved",
   "theorems": [
    "DDC.Props.C24_unsigned",
    "DDC.Props.C24_meaning",
    "DDC.Props.C24_bxor",
    "DDC.Props.C24_semiring",
    "DDC.Props.C24_order",
    "DDC.Props.C24_minmax",
    "DDC.Props.C24_logical_no_unit"
   ],
   "note": "All reducers on unsigned integers of any width, semirings and linear orders. land/lor only on {0,1} (C24_logical_no_unit). The functors have no neutral(): the identity is that of the Kokkos reducer."
  },
  {
   "property": "C25",
   "status": "partial",
   "theorems": [
    "DDC.Props.C25_lifetime_partial",
    "DDC.Props.C25_init",
    "DDC.Props.C25_release_partial",
    "DDC.Props.C25_tuple",
    "DDC.Props.C25_display",
    "DDC.Props.C25_again",
    "DDC.Props.C25_trivial",
    "DDC.Props.C25_nested_guards",
    "DDC.Props.C25_without_guard",
    "DDC.Props.C25_same_name"
   ],
   "note": "All well-scoped histories (guards do not nest, initialisations inside a guard, distinct type names), host part, and the listing of the store (C25_display). The claim fails outside of these: C25_nested_guards, C25_without_guard (undefined behaviour), C25_same_name. Device copies of the attributes are in C68."
  },
  {
   "property": "C26",
   "status": "proved",
   "theorems": [
    "DDC.Props.C26_init",
    "DDC.Props.C26_strict",
    "DDC.Props.C26_requires"
   ],
   "note": "Exact arithmetic over any ordered field (rounding not modelled)."
  },
  {
   "property": "C27",
   "status": "partial",
   "theorems": [
    "DDC.Props.C27_exactly_one",
    "DDC.Props.C27_uniform",
    "DDC.Props.C27_uniform_symmetric",
    "DDC.Props.C27_uniform_requires",
    "DDC.Props.C27_non_uniform",
    "DDC.Props.C27_non_uniform_requires",
    "DDC.Props.C27_periodic_partial",
    "DDC.Props.C27_periodic_symmetric",
    "DDC.Props.C27_periodic_wraps"
   ],
   "note": "Uniform and non-uniform samplings: full. Periodic sampling: the partition holds always, the coordinates of the main domain only inside the first half period; the rest of the claim is false (C27_periodic_wraps). Exact arithmetic."
  },
  {
   "property": "C28",
   "status": "proved",
   "theorems": [
    "DDC.Props.C28_accepts",
    "DDC.Props.C28_rejects",
    "DDC.Props.C28_init",
    "DDC.Props.C28_monotone"
   ],
   "note": "All point lists over any linearly ordered field; NaN not modelled."
  },
  {
   "property": "C29",
   "status": "partial",
   "theorems": [
    "DDC.Props.C29_coordinate_partial",
    "DDC.Props.C29_periodic_partial",
    "DDC.Props.C29_values_partial",
    "DDC.Props.C29_first_half",
    "DDC.Props.C29_init",
    "DDC.Props.C29_requires",
    "DDC.Props.C29_constructor",
    "DDC.Props.C29_int_overflow",
    "DDC.Props.C29_long_period",
    "DDC.Props.C29_index_wraps",
    "DDC.Props.C29_rlength_negative"
   ],
   "note": "Periods up to 2^31 and indices i with i + n/2 < 2^64; outside of these the claim is false (C29_int_overflow, C29_long_period: every period between 2^31 and 2^32, C29_index_wraps). The assertions of the constructor are pinned by C29_constructor. Exact arithmetic."
  },
  {
   "property": "C30",
   "status": "partial",
   "theorems": [
    "DDC.Props.C30_eval_basis_partial",
    "DDC.Props.C30_eval_basis_degree_partial",
    "DDC.Props.C30_requires",
    "DDC.Props.C30_clamps",
    "DDC.Props.C30_many_cells"
   ],
   "note": "Exact arithmetic, all degrees >= 1, all x. Number of cells below 2^31: from there on the int cell index overflows and evaluation is undefined (C30_many_cells)."
  },
  {
   "property": "C31",
   "status": "proved",
   "theorems": [
    "DDC.Props.C31_eval_basis",
    "DDC.Props.C31_requires"
   ],
   "note": "Exact arithmetic; more general than strictly increasing break points (inner repetitions allowed)."
  },
  {
   "property": "C32",
   "status": "partial",
   "theorems": [
    "DDC.Props.C32_uniform_partial",
    "DDC.Props.C32_non_uniform"
   ],
   "note": "Both families: the result lists, for the interval found, the derivatives of the polynomials the B-splines are equal to on it (the polynomial is unique, IsPiece.unique); the derivatives sum to 0; the element returned is that of eval_basis. The non-uniform part is complete; the uniform part requires fewer than 2^31 cells (int cell index, see C30_many_cells). Exact arithmetic."
  },
  {
   "property": "C33",
   "status": "partial",
   "theorems": [
    "DDC.Props.C33_uniform_partial",
    "DDC.Props.C33_non_uniform_partial",
    "DDC.Props.C33_factor_overflow",
    "DDC.Props.C33_rows_agree",
    "DDC.Props.C33_uniform_requires",
    "DDC.Props.C33_non_uniform_requires"
   ],
   "note": "Uniform: all orders n <= degree, all cells below 2^31. Non-uniform: all orders as long as p!/(p-k)! fits in an int (always for p <= 12); C33_factor_overflow shows the derivatives of order 13 in degree 13 are wrong because the factor is kept in an int. Rows 0 and 1 agree with eval_basis and eval_deriv (C33_rows_agree). Exact arithmetic."
  },
  {
   "property": "C34",
   "status": "partial",
   "theorems": [
    "DDC.Props.C34_uniform_partial",
    "DDC.Props.C34_uniform_outside",
    "DDC.Props.C34_non_uniform",
    "DDC.Props.C34_non_uniform_outside"
   ],
   "note": "Non-uniform: in full. Uniform: number of cells below 2^31; from there on the conversion to int is undefined (C30_many_cells)."
  },
  {
   "property": "C35",
   "status": "proved",
   "theorems": [
    "DDC.Props.C35_non_uniform",
    "DDC.Props.C35_non_uniform_counts",
    "DDC.Props.C35_requires",
    "DDC.Props.C35_uniform",
    "DDC.Props.C35_uniform_counts",
    "DDC.Props.C35_uniform_requires"
   ],
   "note": "Uniform B-splines are not clamped in the code: their knots continue with the same step; the clamped statement is about non-uniform ones."
  },
  {
   "property": "C36",
   "status": "partial",
   "theorems": [
    "DDC.Props.C36_non_uniform",
    "DDC.Props.C36_non_uniform_periodic",
    "DDC.Props.C36_uniform_partial",
    "DDC.Props.C36_few_cells",
    "DDC.Props.C36_uniform_periodic",
    "DDC.Props.C36_requires"
   ],
   "note": "C36_non_uniform, C36_non_uniform_periodic and C36_uniform_periodic cover all degrees, meshes, chunk sizes and orders of execution; C36_uniform_partial needs at least as many cells as the degree (and fewer than 2^31 cells, as eval_basis). Otherwise the code violates the property: C36_few_cells proves undefined behaviour whenever 0 < ncells < degree. Real arithmetic is exact (ordered field)."
  },
  {
   "property": "C37",
   "status": "partial",
   "theorems": [
    "DDC.Props.C37_kind",
    "DDC.Props.C37_uniform",
    "DDC.Props.C37_uniform_greville_partial",
    "DDC.Props.C37_uniform_greville_fails",
    "DDC.Props.C37_non_uniform",
    "DDC.Props.C37_non_uniform_periodic_partial",
    "DDC.Props.C37_knots_uniform",
    "DDC.Props.C37_knots_uniform_list",
    "DDC.Props.C37_knots_non_uniform",
    "DDC.Props.C37_knots_count",
    "DDC.Props.C37_knots_requires",
    "DDC.Props.C37_few_cells"
   ],
   "note": "C37_uniform, C37_non_uniform (all closures, non-periodic), C37_knots_uniform, C37_knots_uniform_list and C37_knots_non_uniform cover all degrees and all meshes with strictly increasing break points. C37_uniform_greville_partial covers the mixed uniform case for degree at most 8 (and 3 cells above degree 3): C37_uniform_greville_fails proves that the code returns non-increasing points for degree at least 9. C37_non_uniform_periodic_partial needs at least as many cells as the degree: C37_few_cells shows a point outside of the domain and an out-of-bounds read otherwise. C37_knots_count: the knots are as many as the unknowns exactly when the splines are periodic or the degree is odd. Real arithmetic is exact."
  },
  {
   "property": "C38",
   "status": "proved",
   "theorems": [
    "DDC.Props.C38_write",
    "DDC.Props.C38_write_outside",
    "DDC.Props.C38_read_outside",
    "DDC.Props.C38_out_of_range",
    "DDC.Props.C38_history",
    "DDC.Props.C38_lapack",
    "DDC.Props.C38_fresh"
   ],
   "note": "All storages nested in any way, all sizes below 2^60, bandwidths, positions and histories of writes. A write of absolute value below 1e-15 out of the band is dropped by the code, as stated by C38_write_outside."
  },
  {
   "property": "C39",
   "status": "partial",
   "theorems": [
    "DDC.C39_solves_partial",
    "DDC.C39_setup_direct",
    "DDC.C39_setup_blocks",
    "DDC.C39_required_rows",
    "DDC.C39_wrong_rows",
    "DDC.C39_tiny_entries",
    "DDC.C39_nearby",
    "DDC.C39_coupling_exists"
   ],
   "note": "The solvers of the dense, band, symmetric band, tridiagonal, 2x2 and 3x3 block matrices solve every regular system in place, direct or transposed, in any order of the parallel loops, and the set-up fails exactly for the singular matrices (C39_setup_*). Missing: dense2coo drops entries below 1e-14 of the off-diagonal blocks, so the exact claim excludes such systems (Clean); C39_tiny_entries is a regular system that is not solved. Without that exclusion C39_nearby shows that one matrix within an explicit distance is solved exactly, and C39_coupling_exists that the constant in the bound exists. The external factorisations are exact by contract (satisfiable: exactLapack_exact)."
  },
  {
   "property": "C40",
   "status": "proved",
   "theorems": [
    "DDC.C40_chunks",
    "DDC.C40_solve",
    "DDC.C40_converges",
    "DDC.C40_chunk_size",
    "DDC.C40_no_column",
    "DDC.C40_wrong_rows"
   ],
   "note": "The chunks are consecutive, cover all columns and fit the buffers; every column is solved and the result does not depend on the size of the chunks, under the contract that the iterative solver returns solutions when it converges. C40_no_column: no column or chunk size zero is a division by zero."
  },
  {
   "property": "C41",
   "status": "partial",
   "theorems": [
    "DDC.Props.C41_interpolates_partial",
    "DDC.Props.C41_offset",
    "DDC.Props.C41_offset_regular",
    "DDC.Props.C41_constructs",
    "DDC.Props.C41_constructs_dense",
    "DDC.Props.C41_negative_offset",
    "DDC.Props.C41_negative_offset_accepted",
    "DDC.Props.C41_negative_offset_front",
    "DDC.Props.C41_symmetric_storage",
    "DDC.Props.C41_few_cells",
    "DDC.Props.C41_approximates_partial",
    "DDC.Props.C41_coupling",
    "DDC.Props.C41_symmetric",
    "DDC.Props.C41_greville_partial",
    "DDC.Props.C41_builds_partial",
    "DDC.Props.C41_uniform_partial",
    "DDC.Props.C41_periodic_partial",
    "DDC.Props.C41_knots_even_degree",
    "DDC.Props.C41_well_posed",
    "DDC.Props.C41_open_partial",
    "DDC.Props.C41_general_partial",
    "DDC.Props.C41_nonUniform_partial",
    "DDC.Props.C41_periodic_well_posed_partial",
    "DDC.Props.C41_even_singular",
    "DDC.Props.C41_periodic_dominant",
    "DDC.Props.C41_periodic_general_partial",
    "DDC.Props.C41_nonUniform_periodic_partial",
    "DDC.Props.C41_nonUniform_odd_partial",
    "DDC.Props.C41_dropped",
    "DDC.Props.C41_negative_offset_greville"
   ],
   "note": "Constructor and operator() modelled with the exact contract of the solvers. Proved: the coefficients interpolate values and derivatives for every degree, mesh, closure, batch and schedule, once the constructor has succeeded (C41_interpolates_partial); without excluding the small entries that the code drops, every condition holds up to an explicit multiple of 1e-14 times the sum of the coefficients (C41_approximates_partial, C41_coupling); the constructor is the set-up of the linear problem with the collocation matrix. The problem is well posed under the conditions of Schoenberg and Whitney, for any degree, simple knots and derivatives at the ends (C41_well_posed). Uniform B-splines of any degree with the Greville points of the code: no hypothesis on the matrix is left (C41_symmetric, C41_greville_partial); the constructor succeeds exactly for well-posed problems and throws otherwise (C41_builds_partial, C41_uniform_partial; tolerance explicit up to degree 6); it always succeeds in a periodic dimension (C41_periodic_partial) and on a bounded interval with any closures (C41_open_partial). Non-uniform B-splines of any degree on a bounded interval: it always succeeds at the Greville points (C41_nonUniform_partial), and for other points under the conditions of Schoenberg and Whitney (C41_general_partial). Non-uniform B-splines in a periodic dimension: the constructor succeeds exactly when the matrix is regular, if the shift fits the points (C41_periodic_general_partial); the matrix is regular for an odd number of cells under the conditions of Schoenberg and Whitney (C41_periodic_well_posed_partial; C41_even_singular: false for even numbers) and for dominant problems (C41_periodic_dominant); with the Greville points it always succeeds up to degree 3 (C41_nonUniform_periodic_partial), and for odd numbers of cells and any degree if compute_offset finds the right shift (C41_nonUniform_odd_partial). Missing: compute_offset finds a wrong shift for some Greville points of degree 4 and 6 (C41_dropped: assertion; C41_negative_offset_greville: undefined behaviour); symmetric storage needs a symmetric matrix (C41_symmetric_storage and C41_knots_even_degree are counterexamples); negative shifts are undefined behaviour (C41_negative_offset); nbasis <= degree in a periodic dimension gives a wrong matrix (C41_few_cells)."
  },
  {
   "property": "C42",
   "status": "partial",
   "theorems": [
    "DDC.Props.C42_value",
    "DDC.Props.C42_periodic",
    "DDC.Props.C42_nd",
    "DDC.Props.C42_mesh",
    "DDC.Props.C42_mesh_deriv",
    "DDC.Props.C42_built_partial",
    "DDC.Props.C42_deriv_not_periodic"
   ],
   "note": "Evaluation: proved for all degrees, meshes, periodic coefficients, x and numbers of periods, in any number of dimensions, exact arithmetic, fewer than 2^31 knots. Coefficients of the builder: under the hypotheses of C41_interpolates_partial (C42_built_partial, which also composes building and evaluating). deriv() is not periodic: outside the domain it fails (C42_deriv_not_periodic)."
  },
  {
   "property": "C43",
   "status": "partial",
   "theorems": [
    "DDC.Props.C43_sum",
    "DDC.Props.C43_quadrature_partial",
    "DDC.Props.C43_uniform_widths",
    "DDC.Props.C43_homogeneous",
    "DDC.Props.C43_shift_ignored"
   ],
   "note": "C43_quadrature_partial: for every data vector, values and boundary derivatives, the sum with the coefficients of quadrature_coefficients is the integral of the interpolating spline, and the coefficients live on the meshes of the data; same hypotheses as C41. Missing because false: homogeneous Hermite closures from degree 2 on (C43_homogeneous: more coefficients than points, shifted) and periodic splines on non-uniform knots with a shift of the unknowns (C43_shift_ignored: concrete case, 5/4 instead of 1). C43_sum says what is computed in all cases. Uniform non-periodic B-splines need at least as many cells as the degree (C36_few_cells)."
  },
  {
   "property": "C44",
   "status": "partial",
   "theorems": [
    "DDC.Props.C44_wrap",
    "DDC.Props.C44_one",
    "DDC.Props.C44_two",
    "DDC.Props.C44_three",
    "DDC.Props.C44_inside",
    "DDC.Props.C44_outside",
    "DDC.Props.C44_inside_1d",
    "DDC.Props.C44_periodic_1d",
    "DDC.Props.C44_outside_1d",
    "DDC.Props.C44_null",
    "DDC.Props.C44_constant",
    "DDC.Props.C44_constant_1d",
    "DDC.Props.C44_constant_rule_2d",
    "DDC.Props.C44_constant_2d",
    "DDC.Props.C44_constant_2d_periodic"
   ],
   "note": "1D, 2D, 3D and ND evaluators, all rules, coefficients and x; exact arithmetic. Missing: B-splines with 2^31 knots or more (eval_basis is undefined there, C30_many_cells); the periodic rule's assertion on a string literal always holds, it is never called for a periodic dimension."
  },
  {
   "property": "C45",
   "status": "partial",
   "theorems": [
    "DDC.Props.C45_nd",
    "DDC.Props.C45_one",
    "DDC.Props.C45_two",
    "DDC.Props.C45_three",
    "DDC.Props.C45_1d",
    "DDC.Props.C45_2d",
    "DDC.Props.C45_3d",
    "DDC.Props.C45_bad_order"
   ],
   "note": "All ranks, points, coefficients and derivative requests; exact arithmetic. Missing: B-splines with 2^31 knots or more and, for non-uniform B-splines, derivatives whose factor p!/(p-k)! does not fit in an int (undefined in the code, C33_factor_overflow)."
  },
  {
   "property": "C46",
   "status": "partial",
   "theorems": [
    "DDC.Props.C46_2d_partial",
    "DDC.Props.C46_3d_partial",
    "DDC.Props.C46_1d_ignores",
    "DDC.Props.C46_2d_ignores",
    "DDC.Props.C46_3d_ignores_partial",
    "DDC.Props.C46_mixed_not_needed",
    "DDC.Props.C46_mixed_rejected",
    "DDC.Props.C46_other_batch",
    "DDC.Props.C46_batch_rejected"
   ],
   "note": "C46_2d_partial, C46_3d_partial: every pair/triple of conditions (values, derivatives, mixed derivatives) is met, for all closures, degrees, data, batch domains; C46_1d_ignores, C46_2d_ignores, C46_3d_ignores_partial: which boundary data has an influence; C46_batch_rejected: values on another batch domain are refused. Missing: the restrictions of C41 on each 1D builder. For the 3D builder the second half of the claim is false: C46_mixed_not_needed (unneeded mixed derivatives are dereferenced), C46_mixed_rejected (HERMITE along dimension 3 only: never succeeds)."
  },
  {
   "property": "C47",
   "status": "partial",
   "theorems": [
    "DDC.Props.C47_wrong_count",
    "DDC.Props.C47_accepts",
    "DDC.Props.C47_rejects_partial",
    "DDC.Props.C47_constructor",
    "DDC.Props.C47_skipped_cells",
    "DDC.Props.C47_missed_end",
    "DDC.Props.C47_accepted_singular"
   ],
   "note": "C47_accepts, C47_wrong_count and C47_constructor are complete. C47_rejects_partial: overfull grids are rejected when every cell [t k, t (k+1)) holds a point. The general claim is false: check_valid_grid moves to the next cell only once per point (C47_skipped_cells, C47_missed_end are accepted although overfull; C47_accepted_singular: the problem of the latter has no solution for some data)."
  },
  {
   "property": "C48",
   "status": "partial",
   "theorems": [
    "DDC.Props.C48_mismatch",
    "DDC.Props.C48_batch_domain",
    "DDC.Props.C48_domain",
    "DDC.Props.C48_spline",
    "DDC.Props.C48_spline_tr",
    "DDC.Props.C48_passed_back_partial",
    "DDC.Props.C48_even",
    "DDC.Props.C48_even_upper"
   ],
   "note": "C48_domain, C48_spline, C48_spline_tr describe the domains for all degrees, closures and batch dimensions. C48_passed_back_partial: they can be passed back for odd degrees and for closures other than HERMITE. For even degrees with HERMITE the claim is false: C48_even, C48_even_upper say that the builder aborts. C48_mismatch: a domain that is not the interpolation mesh along the dimension of interest aborts in all five functions."
  },
  {
   "property": "C49",
   "status": "partial",
   "theorems": [
    "DDC.Props.C49_fft",
    "DDC.Props.C49_ifft",
    "DDC.Props.C49_rfft",
    "DDC.Props.C49_irfft",
    "DDC.Props.C49_inverse",
    "DDC.Props.C49_inverse_real",
    "DDC.Props.C49_mesh",
    "DDC.Props.C49_wave_numbers_partial",
    "DDC.Props.C49_space_overflow",
    "DDC.Props.C49_space_one_point",
    "DDC.Props.C49_full_one_point"
   ],
   "note": "Fourier meshes, wave numbers, the value of fft and ifft for every normalisation on complex and real data, and their composition, for all shapes and ranks. Partial: the library transforms are assumed exact (Library.Exact, with an instance), numbers are real numbers, wave numbers are proved up to 2^31 points (beyond, C49_space_overflow shows a signed overflow), FULL needs two points per dimension (C49_full_one_point shows the division by zero)."
  },
  {
   "property": "C50",
   "status": "proved",
   "theorems": [
    "DDC.Props.C50_file",
    "DDC.Props.C50_contiguous",
    "DDC.Props.C50_strided",
    "DDC.Props.C50_sparse",
    "DDC.Props.C50_dtype",
    "DDC.Props.C50_no_throw",
    "DDC.Props.C50_throws"
   ],
   "note": "For every array whose byte size does not overflow: the bytes decode, with a reader of format version 1.0 written independently (magic, version, length field, alignment, Python dictionary in any key order, data), to the type, order flag, shape and exactly the data; throw iff no 16-bit aligned header length has room for the dictionary. For chunks on contiguous, strided and sparse domains of any layout and memory space the data are the values in lexicographic order of the elements. Not modelled: failures of the stream or file system (the ostream overload does not report them), bit representation of a scalar (an arbitrary fixed-size encoding)."
  },
  {
   "property": "C51",
   "status": "proved",
   "theorems": [
    "DDC.Props.C51_set",
    "DDC.Props.C51_options",
    "DDC.Props.C51_race",
    "DDC.Props.C51_elided",
    "DDC.Props.C51_heading",
    "DDC.Props.C51_all_shown",
    "DDC.Props.C51_contiguous",
    "DDC.Props.C51_strided",
    "DDC.Props.C51_sparse"
   ],
   "note": "For contiguous, strided and sparse domains of every rank, layout and memory space and all valid options: the text of print_content is the one of an independent specification (every entry of a dimension shorter than the threshold, otherwise the first and last edgeitems, in order, right-justified to the longest shown text); every access succeeds, so none is out of range (out of range is ub in the model). C51_options: the invariant holds after every sequential history from the default. print and print_full (restores the options) are covered. C51_race: set_print_options reads the old options outside the lock, so under concurrency the returned value can be the temporary options of print_full. Not modelled: formatting of one scalar (an arbitrary function), demangling of the type name."
  },
  {
   "property": "C52",
   "status": "proved",
   "theorems": [
    "DDC.Props.C52_life",
    "DDC.Props.C52_once",
    "DDC.Props.C52_expose",
    "DDC.Props.C52_cstring_dangles"
   ],
   "note": "For all sequences of with() calls (all overloads, explicit and deduced access) interleaved with ends of lives of caller objects: accepted iff the static_asserts hold; trace = shares, one event, one reclaim per share in order, then destruction of the copies; shares are exactly the expected ones with copies (rank, extents, sizes, read-only arithmetic values) holding the values at the call. C52_cstring_dangles: C strings are shared by address (observation). Not modelled: PDI's return codes (ignored by the code), out of memory."
  },
  {
   "property": "C53",
   "status": "partial",
   "theorems": [
    "DDC.Props.C53_order",
    "DDC.Props.C53_add",
    "DDC.Props.C53_sub",
    "DDC.Props.C53_neg_smul",
    "DDC.Props.C53_scalar",
    "DDC.Props.C53_assign",
    "DDC.Props.C53_assign_scalar_partial",
    "DDC.Props.C53_scalar_alias",
    "DDC.Props.C53_ctor",
    "DDC.Props.C53_ctor_values",
    "DDC.Props.C53_select",
    "DDC.Props.C53_eq",
    "DDC.Props.C53_eq_missing",
    "DDC.Props.C53_group",
    "DDC.Props.C53_coordinate",
    "DDC.Props.C53_coordinate_clash",
    "DDC.Props.C53_print"
   ],
   "note": "All of tagged_vector.hpp and coordinate.hpp for arbitrary element types and operations (so rounding included): +, -, unary, scalar multiples, compound assignments (also with itself), merge constructor, select, ==, !=, printing, coordinates of several dimensions; independence of tag order C53_order. Partial because += and -= of a scalar take it by reference: C53_scalar_alias shows v += v.get<X>() is not tag-wise; C53_assign_scalar_partial covers the other cases. == is asymmetric for sub-packs (C53_eq_missing)."
  },
  {
   "property": "C54",
   "status": "partial",
   "theorems": [
    "DDC.Props.C54_band",
    "DDC.Props.C54_blocks",
    "DDC.Props.C54_periodic_partial",
    "DDC.Props.C54_periodic_small",
    "DDC.Props.C54_periodic_overflow"
   ],
   "note": "C54_band and C54_blocks cover all sizes that fit in int. C54_periodic_partial holds whenever the numbers of values of the two candidate storages fit in an int (all sizes up to 35000, C54_periodic_small); C54_periodic_overflow proves undefined behaviour in every other case, in particular from size 46341 on."
  },
  {
   "property": "C55",
   "status": "partial",
   "theorems": [
    "DDC.Props.C55_sum",
    "DDC.Props.C55_integrate_partial"
   ],
   "note": "C55_integrate_partial: any number of dimensions, any coefficients and schedules. Missing because false: uniform non-periodic B-splines with fewer cells than the degree (C36_few_cells)."
  },
  {
   "property": "C56",
   "status": "partial",
   "theorems": [
    "DDC.Props.C56_get",
    "DDC.Props.C56_set",
    "DDC.Props.C56_get_type",
    "DDC.Props.C56_assign",
    "DDC.Props.C56_copy",
    "DDC.Props.C56_swap",
    "DDC.Props.C56_apply",
    "DDC.Props.C56_compare",
    "DDC.Props.C56_order",
    "DDC.Props.C56_nvcc",
    "DDC.Props.C56_eq_incomparable",
    "DDC.Props.C56_eq_needs_less",
    "DDC.Props.C56_cat",
    "DDC.Props.C56_cat_moves_lvalues",
    "DDC.Props.C56_rules",
    "DDC.Props.C56_category"
   ],
   "note": "Access, assignment, swap, apply, comparison on totally ordered components the category of the comparison (C56_category) and the order of the rules are proved for every size. The code violates the rest of the claim: C56_eq_incomparable and C56_eq_needs_less (== goes through <=> or <, unlike nvcc's), C56_cat_moves_lvalues (tuple_cat moves from non-const lvalues); C56_cat gives the exact effect under the weakest condition on repeated objects. Component conversions, reference components and constexpr/no_unique_address layout are not modelled."
  },
  {
   "property": "C57",
   "status": "partial",
   "theorems": [
    "DDC.Props.C57_sum",
    "DDC.Props.C57_sum_out_of_bounds",
    "DDC.Props.C57_dot",
    "DDC.Props.C57_ipow",
    "DDC.Props.C57_ipow_min",
    "DDC.Props.C57_factorial_partial",
    "DDC.Props.C57_factorial_wraps",
    "DDC.Props.C57_modulo_partial",
    "DDC.Props.C57_modulo_int",
    "DDC.Props.C57_modulo_large",
    "DDC.Props.C57_min_max"
   ],
   "note": "All functions of math_tools.hpp modelled; double is a field, except in modulo where every operation is followed by a rounding (relative error 2^-53, exact on 53-bit integers; round53 is such a rounding). Proved for all inputs: sum, dot_product, ipow, min, max; modulo on int, with the rounding. Missing because false in the code: factorial is exact only up to 20 (C57_factorial_wraps; it is the factorial modulo 2^64, and 1 for the largest argument); ipow of the smallest int is undefined (C57_ipow_min); modulo on ptrdiff_t beyond 53 bits (C57_modulo_large)."
  },
  {
   "property": "C58",
   "status": "partial",
   "theorems": [
    "DDC.Props.C58_uniform_partial",
    "DDC.Props.C58_past_the_end",
    "DDC.Props.C58_periodic_partial",
    "DDC.Props.C58_far_aborts",
    "DDC.Props.C58_non_uniform"
   ],
   "note": "Construction of the uniform knots, get_icell_and_offset, find_cell_start and the periodic wrap modelled with a rounding after every operation (no overflow, no contraction). Proved for every rounding: uniform B-splines give 0 <= cell <= ncells, 0 <= offset <= 1, an explicit bound on the error of the position, and cell < ncells away from the upper bound; non-uniform B-splines always find the cell that contains the coordinate; a coordinate within 16 periods is wrapped without violating the assertions. Missing because false in the code: cell < ncells next to the upper bound (C58_past_the_end: cubic splines on 10 cells of [0, 3.1] at x = 3.1 use the cell 10), coordinates far away (C58_far_aborts)."
  },
  {
   "property": "C59",
   "status": "partial",
   "theorems": [
    "DDC.Props.C59_sorted",
    "DDC.Props.C59_non_uniform_partial",
    "DDC.Props.C59_aborts",
    "DDC.Props.C59_uniform_sorted",
    "DDC.Props.C59_uniform_partial",
    "DDC.Props.C59_uniform_past_the_end",
    "DDC.Props.C59_periodic_non_uniform_partial",
    "DDC.Props.C59_periodic_throws",
    "DDC.Props.C59_edges_partial",
    "DDC.Props.C59_edges_located_partial",
    "DDC.Props.C59_edges_past_the_end",
    "DDC.Props.C59_edges_abort",
    "DDC.Props.C59_selected"
   ],
   "note": "Greville points modelled with a rounding after every operation: the uniform sampling of uniform B-splines, the points of uniform B-splines with GREVILLE closures at one or both edges, and non-uniform B-splines, periodic or not. Proved for every rounding: the points are sorted (so that the sampling accepts them), explicit bounds on their errors, and they are located in a cell by the B-splines; for uniform B-splines and periodic ones this needs rounding to nearest. Missing because false in the code: non-uniform domains far from the origin (C59_aborts), and uniform ones with GREVILLE closures (C59_edges_abort); cell < ncells for the last uniform point (C59_uniform_past_the_end, C59_edges_past_the_end); periodic cells of a few units in the last place (C59_periodic_throws). Points at the edges: degrees up to 8, and at least 3 cells beyond degree 3, as in C37. C59_selected: the points selected for HERMITE closures on non-uniform B-splines are consecutive ones of these, as many as there are B-splines without the derivatives given at the ends."
  },
  {
   "property": "C60",
   "status": "partial",
   "theorems": [
    "DDC.Props.C60_non_uniform",
    "DDC.Props.C60_below",
    "DDC.Props.C60_uniform_partial",
    "DDC.Props.C60_past_the_end",
    "DDC.Props.C60_periodic_non_uniform",
    "DDC.Props.C60_tiny_cell_throws"
   ],
   "note": "eval_basis of uniform and non-uniform B-splines modelled with a rounding after every operation. Proved for every rounding and every coordinate of the domain: values are not negative, sum to 1 up to 6 p 2^-53, total error at most 9 p 2^-53 and relative error of every value at most 8 p 2^-53 for non-uniform B-splines whatever the break points; for uniform B-splines p (p + 13) 2^-53 + p (n + 1) 2^-49 with respect to the position in units of the step. Missing because false in the code: for uniform B-splines next to the upper bound, the last B-spline listed may not exist (C60_past_the_end). C60_non_uniform is for clamped B-splines; C60_periodic_non_uniform covers the periodic ones, whose constructor computes knots outside of the domain with rounding, when the first and the last cells are not smaller than 2^-53 periods; otherwise the constructor can throw (C60_tiny_cell_throws)."
  },
  {
   "property": "C61",
   "status": "partial",
   "theorems": [
    "DDC.Props.C61_non_uniform",
    "DDC.Props.C61_uniform_partial",
    "DDC.Props.C61_past_the_end",
    "DDC.Props.C61_periodic_partial",
    "DDC.Props.C61_periodic_non_uniform_partial"
   ],
   "note": "eval_no_bc in one dimension with rounding. Proved for every rounding: error at most (11 p + 3) 2^-53 times the largest coefficient for non-uniform B-splines; for uniform B-splines the same kind of bound or, within a relative distance 2^-50 of the upper bound, an out-of-bounds read, which does occur (C61_past_the_end: the evaluation of cubic splines on 10 cells of [0, 3.1] at 3.1). C61_periodic_partial covers the evaluator of periodic uniform splines: the result is the value, with the same error, at a point of the domain equal to the coordinate up to a multiple of the period and 2^-45 periods (for coordinates within 16 periods of the domain). C61_periodic_non_uniform_partial: the same for non-uniform splines, without out-of-bounds read; there the accuracy is not stated when the wrapped coordinate falls outside of the domain by less than 2^-46 periods. Beyond the ends of a domain that is not periodic the result is that of the rule of that end. Derivatives: C67."
  },
  {
   "property": "C62",
   "status": "partial",
   "theorems": [
    "DDC.Props.C62_uniform",
    "DDC.Props.C62_strict",
    "DDC.Props.C62_ghosted",
    "DDC.Props.C62_periodic_partial",
    "DDC.Props.C62_periodic_init",
    "DDC.Props.C62_periodic_ghosted",
    "DDC.Props.C62_last",
    "DDC.Props.C62_ghosted_first",
    "DDC.Props.C62_coincide"
   ],
   "note": "init, init_ghosted, coordinate, rmin, rmax, rlength of uniform samplings and init, init_ghosted, coordinate of periodic samplings modelled with a rounding after every operation and conversion. Proved for every rounding: first point exactly a, sorted, explicit error bounds, distinct points above the resolution, exact periodicity. C62_last: the last point can exceed b (12 points of [0, 0.1]); C62_ghosted_first: with ghosts the first point of the main domain may differ from a; C62_coincide: points closer than the resolution coincide. C62_periodic_ghosted: init_ghosted of a periodic sampling. Missing: periods above 2^31 and indices near 2^64 (false, C29)."
  },
  {
   "property": "C63",
   "status": "partial",
   "theorems": [
    "DDC.Props.C63_nd_partial",
    "DDC.Props.C63_2d_partial",
    "DDC.Props.C63_3d_partial"
   ],
   "note": "eval_no_bc in two, three and any number of dimensions, on any mix of uniform and non-uniform B-splines, with rounding. Proved for every rounding: no out-of-bounds read and error at most 5/4 (P + D) 2^-53 + 17/16 (sum of the precisions of C60 in each dimension) times the largest coefficient, P the number of products and D the number of dimensions, P at most 2^40. Missing: the coordinates at a relative distance less than 2^-50 of the upper end of a uniform dimension, where a coefficient out of bounds may be read (C61_past_the_end). Derivatives: C71. Extrapolation and periodic coordinates: C72."
  },
  {
   "property": "C64",
   "status": "partial",
   "theorems": [
    "DDC.Props.C64_any_plan",
    "DDC.Props.C64_host",
    "DDC.Props.C64_any_scan",
    "DDC.Props.C64_sum_partial",
    "DDC.Props.C64_sum_host_partial",
    "DDC.Props.C64_prod_partial",
    "DDC.Props.C64_integers",
    "DDC.Props.C64_scan_partial",
    "DDC.Props.C64_schedules_differ",
    "DDC.Props.C64_two_runs_partial",
    "DDC.Props.C64_min_max"
   ],
   "note": "All schedules, any operation: C64_any_plan, C64_host, C64_any_scan (each element combined once, scans in order) and C64_min_max, C64_integers in full. The error bounds are partial: roundings to nearest with 53 bits and an unbounded exponent (no overflow, underflow or NaN), transformed values representable, host reduction started from zero. C64_schedules_differ: two plans that give different results with the rounding of IEEE 754."
  },
  {
   "property": "C65",
   "status": "partial",
   "theorems": [
    "DDC.Props.C65_non_uniform",
    "DDC.Props.C65_periodic_non_uniform",
    "DDC.Props.C65_uniform_partial",
    "DDC.Props.C65_uniform_degree_one_partial"
   ],
   "note": "eval_deriv of uniform and non-uniform B-splines modelled with a rounding after every operation. Full statement for non-uniform B-splines, clamped (C65_non_uniform) and periodic with first and last cells of at least 2^-53 periods (C65_periodic_non_uniform). C65_uniform_partial: degree at least 2, errors of the derivatives times the step add up to at most 2 p (p + 11) 2^-53 + p (n + 1) 2^-48, with respect to the position in units of the step. C65_uniform_degree_one_partial: degree 1, the slopes of the cell the code uses, that contains the coordinate up to (n + 1) 2^-50 steps. Missing: the number of the first B-spline next to the upper bound (C60_past_the_end). eval_basis_and_n_derivs is in C67."
  },
  {
   "property": "C66",
   "status": "partial",
   "theorems": [
    "DDC.Props.C66_one_instance",
    "DDC.Props.C66_builder",
    "DDC.Props.C66_builder_2d",
    "DDC.Props.C66_builder_3d",
    "DDC.Props.C66_quadrature",
    "DDC.Props.C66_integrate",
    "DDC.Props.C66_evaluator",
    "DDC.Props.C66_integrals",
    "DDC.Props.C66_fft",
    "DDC.Props.C66_sparse_domain",
    "DDC.Props.C66_mirror_and_copy",
    "DDC.Props.C66_setup_solver",
    "DDC.Props.C66_needs_waiting_free",
    "DDC.Props.C66_evaluator_returns_early",
    "DDC.Props.C66_schur_needs_synchronous_host"
   ],
   "note": "Every schedule of the host and the instances gives the synchronous result, without deadlock, for all the functions listed, called with kernels of earlier calls still waiting. Buffers are not split into elements. The theorems assume that kokkos_free waits for the kernels (C66_needs_waiting_free shows that the builder needs it) and, for setup_solver, that kernels on the host space have run when they are launched (C66_schur_needs_synchronous_host shows what happens otherwise: the code has no fence there). C66_evaluator_returns_early: a fence is needed before the host reads the result of an evaluator."
  },
  {
   "property": "C67",
   "status": "partial",
   "theorems": [
    "DDC.Props.C67_non_uniform_partial",
    "DDC.Props.C67_periodic_non_uniform_partial",
    "DDC.Props.C67_uniform_partial",
    "DDC.Props.C67_spline_non_uniform_partial",
    "DDC.Props.C67_spline_periodic_non_uniform_partial",
    "DDC.Props.C67_spline_uniform_partial"
   ],
   "note": "eval_basis_and_n_derivs of uniform and non-uniform B-splines and deriv of the one-dimensional evaluator modelled with a rounding after every operation. C67_non_uniform_partial and C67_periodic_non_uniform_partial: full statement for non-uniform B-splines, clamped and periodic (first and last cells of at least 2^-53 periods), as long as the factors p!/(p-k)! are of type int (all degrees up to 12; otherwise C33_factor_overflow). C67_uniform_partial: at a point that is the position in units of the step up to (n + 1) 2^-50. C67_spline_non_uniform_partial, C67_spline_periodic_non_uniform_partial, C67_spline_uniform_partial: derivatives of splines. Missing: the number of the first B-spline next to the upper bound (C60_past_the_end). Several dimensions: C71."
  },
  {
   "property": "C68",
   "status": "partial",
   "theorems": [
    "DDC.Props.C68_same_attributes_partial",
    "DDC.Props.C68_init",
    "DDC.Props.C68_buffers",
    "DDC.Props.C68_never_initialised",
    "DDC.Props.C68_after_guard",
    "DDC.Props.C68_stale_scalars",
    "DDC.Props.C68_copy_fails",
    "DDC.Props.C68_copy_of_knots_fails"
   ],
   "note": "Refinement of a specification without device for all well-scoped histories with nested initialisations and successful copies: host and device attributes agree, buffers are owned, alive and released once. False otherwise: kernels read zeros, stale scalars or released points of dimensions that are not initialised, and a failed copy throws although the host is initialised (witnesses)."
  },
  {
   "property": "C69",
   "status": "proved",
   "theorems": [
    "DDC.Props.C69_non_uniform",
    "DDC.Props.C69_non_uniform_periodic",
    "DDC.Props.C69_uniform",
    "DDC.Props.C69_uniform_periodic",
    "DDC.Props.C69_integrate_non_uniform",
    "DDC.Props.C69_integrate_uniform",
    "DDC.Props.C69_not_exact"
   ],
   "note": "Every floating-point operation is followed by an arbitrary rounding with relative error 2^-53 (no overflow or underflow, no fused multiply-add). Non-uniform, not periodic: entries and their sum with relative error 4*2^-53. Non-uniform, periodic: the same with respect to the computed knots, sum with respect to the period with the rounding errors of the knots. Uniform: entries in units of the computed step, error 0 inside and (p+2)(p+18)*2^-53 at the ends, p <= number of cells (otherwise C36_few_cells). integrate: one dimension, not periodic, one element of the batch domain, fewer than 2^39 coefficients (non-uniform) or 2^31 cells (uniform). Integrals are those of C36 and C43 (antiderivatives of the pieces); all orders of the parallel loops."
  },
  {
   "property": "C70",
   "status": "partial",
   "theorems": [
    "DDC.Props.C70_non_uniform",
    "DDC.Props.C70_greville_partial",
    "DDC.Props.C70_degree_one_aborts",
    "DDC.Props.C70_uniform_even_partial",
    "DDC.Props.C70_uniform_odd_partial",
    "DDC.Props.C70_cubic_partial"
   ],
   "note": "Every floating-point operation is followed by an arbitrary rounding with relative error 2^-53 (to nearest for the uniform points; no overflow or underflow, no fused multiply-add). Non-uniform, not periodic, closures GREVILLE: increasing break points, points of the domain that away from the ends are between the inner knots of their B-spline; residual form for the evaluator and for the exact spline; corollary for the computed Greville points when the first and last ones are in the domain and cells are wider than the rounding errors. Uniform periodic: even degrees, odd degrees from 3 on when the two largest values are farther apart than the errors (proved for degree 3), 35000 cells at most (C54_periodic_overflow). Degree 1: the negation, with a witness. Not with rounding: Hermite rows, non-uniform periodic, the factorization and the solution of the system (LAPACK)."
  },
  {
   "property": "C71",
   "status": "partial",
   "theorems": [
    "DDC.Props.C71_nd_partial",
    "DDC.Props.C71_2d_partial",
    "DDC.Props.C71_3d_partial"
   ],
   "note": "eval_no_bc in two, three and any number of dimensions with any orders of derivation in any of the dimensions, on any mix of uniform and non-uniform (periodic ones included) B-splines, with a rounding after every operation. Error at most 5/4 (P + D) 2^-53 + 17/16 (sum of the precisions in each dimension) times the largest coefficient and the product of the bounds of the derivatives, P the number of products (at most 2^40), D the number of dimensions. Missing: the coordinates at a relative distance less than 2^-50 of the upper end of a uniform dimension, where a coefficient out of bounds may be read (C61_past_the_end); factors p!/(p-k)! that are not of type int."
  },
  {
   "property": "C72",
   "status": "partial",
   "theorems": [
    "DDC.Props.C72_dispatch_nd",
    "DDC.Props.C72_dispatch_2d",
    "DDC.Props.C72_dispatch_3d",
    "DDC.Props.C72_nd_partial",
    "DDC.Props.C72_2d_partial",
    "DDC.Props.C72_3d_partial",
    "DDC.Props.C72_constant_1d",
    "DDC.Props.C72_constant_2d",
    "DDC.Props.C72_constant_2d_periodic"
   ],
   "note": "eval of the evaluators in one, two, three and any number of dimensions and the constant extrapolation rules with a rounding after every operation. C72_dispatch_*: which rule applies and to which coordinates, full statement. C72_constant_*: constant extrapolation is the evaluation at the closest point, as an equality of results. C72_nd_partial, C72_2d_partial, C72_3d_partial: accuracy without extrapolation; missing there: the coordinates excluded in C63 and those that are reduced to a coordinate just outside of the domain of non-uniform periodic B-splines. Periodic coordinates within 16 periods of the domain (C58_far_aborts)."
  },
  {
   "property": "C73",
   "status": "partial",
   "theorems": [
    "DDC.Props.C73_integrate_partial"
   ],
   "note": "integrate of the evaluators in any number of dimensions with rounding: iterated integral up to an explicit error, for both orders of the products and all schedules. Missing: uniform B-splines that are not periodic with fewer cells than the degree (ddc::integrals is wrong there, C36_few_cells) and periodic non-uniform B-splines with fewer cells than the degree."
  },
  {
   "property": "C74",
   "status": "proved",
   "theorems": [
    "DDC.C74_residual",
    "DDC.C74_bound_exists",
    "DDC.C74_setup",
    "DDC.C74_wrong_rows",
    "DDC.C74_exact"
   ],
   "note": "setup_solver and solve of the direct linear problems with rounding: every right-hand side is replaced by a vector with a residual at most Solver.residual times the sum of its absolute values, for all matrices, direct or transposed, all schedules. The external factorisations enter by the contract Lapack.Backward (a residual bound; a hypothesis, satisfiable: oneLapack_backward, and exact solvers). The bound mentions the column sums of the computed Q^-1 gamma, which exist (C74_bound_exists); there is no bound in terms of the matrix only. Rounding without overflow and underflow; not the iterative solver. C74_exact: without rounding it is the model of C39."
  },
  {
   "property": "C75",
   "status": "partial",
   "theorems": [
    "DDC.Props.C75_non_uniform_partial",
    "DDC.Props.C75_constructs",
    "DDC.Props.C75_uniform_even_partial",
    "DDC.Props.C75_uniform_odd_partial",
    "DDC.Props.C75_cubic_partial",
    "DDC.Props.C75_cubic_stable_partial"
   ],
   "note": "Non-uniform, not periodic B-splines with closures GREVILLE, and uniform periodic B-splines at their Greville points on at most 35000 cells (even degrees: C75_uniform_even_partial; odd degrees above one under a gap of the computed points to the knots: C75_uniform_odd_partial; cubic: C75_cubic_partial; degree one aborts, C70_degree_one_aborts). Any rounding with relative error 2^-53 (no overflow or underflow, no fused multiply-add), external solvers by the contract Lapack.Backward (satisfiable: idLapack_backward, cramerLapack_backward, oneLapack_backward, exact solvers). Once constructed (C75_constructs, uniform_constructs: fails only if the factorisation does), operator() gives coefficients whose spline, exact or as evaluated with rounding, takes the data up to N * residual + O(p 2^-53) times the largest coefficient; for cubic periodic splines with a small residual the coefficients are at most four times the data and the errors are relative to the data (C75_cubic_stable_partial). Not: Hermite closures, uniform not periodic, non-uniform periodic B-splines, points outside their inner knots, a bound of the distance to the exact coefficients."
  },
  {
   "property": "C76",
   "status": "proved",
   "theorems": [
    "DDC.Props.C76_stable",
    "DDC.Props.C76_uniform",
    "DDC.Props.C76_maximum",
    "DDC.Props.C76_conservation"
   ],
   "note": "Model of main of uniform_heat_equation.cpp over an ordered field, every order of the iterations and assignments: C76_uniform (ends without abort or undefined behaviour, temperatures of M steps of the torus scheme), C76_stable (the steps cover the time interval, 2cx + 2cy <= 1), C76_maximum, C76_conservation. Exact arithmetic; display left out; the torus has n points at distance (end - start)/(n - 1)."
  },
  {
   "property": "C77",
   "status": "partial",
   "theorems": [
    "DDC.Props.C77_uniform",
    "DDC.Props.C77_non_uniform",
    "DDC.Props.C77_maximum",
    "DDC.Props.C77_conservation_partial",
    "DDC.Props.C77_not_conserved",
    "DDC.Props.C77_not_periodic"
   ],
   "note": "heat_equation.cpp gives the temperatures of C76 (C77_uniform). non_uniform_heat_equation.cpp: values, safety, number of steps (C77_non_uniform) and bounds (C77_maximum) for all parameters, displacements and schedules. C77_conservation_partial: the heat is the same at the end when the first and the last distance agree along each dimension; without this the claim is false (C77_not_conserved), and end points identified by the ghost coordinates get different temperatures (C77_not_periodic). Exact arithmetic, random numbers are a parameter, display left out."
  },
  {
   "property": "C78",
   "status": "proved",
   "theorems": [
    "DDC.Props.C78_generations",
    "DDC.Props.C78_any_board",
    "DDC.Props.C78_blinker"
   ],
   "note": "main for every board of two by two cells or more and every number of rounds, all schedules: C78_generations, C78_blinker; the loop from any board: C78_any_board. The text printed is that of C51 on the recorded memory."
  },
  {
   "property": "C79",
   "status": "partial",
   "theorems": [
    "DDC.Props.C79_modes",
    "DDC.Props.C79_determined",
    "DDC.Props.C79_stable",
    "DDC.Props.C79_conservation",
    "DDC.Props.C79_energy",
    "DDC.Props.C79_time_partial",
    "DDC.Props.C79_overrun"
   ],
   "note": "Real numbers and an exact Fourier library; from 2 to 2^31 points per dimension. The time that the steps advance by is the interval only when it is a multiple of the step (C79_time_partial); C79_overrun shows that the rest of this part of the claim is false."
  },
  {
   "property": "C80",
   "status": "proved",
   "theorems": [
    "DDC.Props.C80_advects",
    "DDC.Props.C80_too_many_steps",
    "DDC.Props.C80_too_negative",
    "DDC.Props.C80_time",
    "DDC.Props.C80_energy",
    "DDC.Props.C80_mass",
    "DDC.Props.C80_shift"
   ],
   "note": "Model of main of characteristics_advection.cpp over an ordered field, both values of PERIODIC_DOMAIN, all schedules: C80_advects (ends, initial density, each step is spline interpolation at the feet of the characteristics), C80_time, C80_too_many_steps and C80_too_negative (a count of steps that does not fit is undefined). Periodic: C80_mass, C80_energy, C80_shift for the whole run, with explicit tolerances (the builder drops entries below 1e-14). Exact arithmetic; exact external solvers; display left out."
  },
  {
   "property": "C81",
   "status": "partial",
   "theorems": [
    "DDC.Props.C81_history_partial",
    "DDC.Props.C81_released",
    "DDC.Props.C81_start",
    "DDC.Props.C81_power_of_two",
    "DDC.Props.C81_destructor",
    "DDC.Props.C81_not_aligned",
    "DDC.Props.C81_equal",
    "DDC.Props.C81_assignment"
   ],
   "note": "Every history for element types without destructor, alignments that are powers of two and multiples of alignof (C81_history_partial, C81_start, C81_released); C81_power_of_two: other alignments are undefined. For types with a destructor the claim is false in the Itanium ABI: C81_destructor, C81_not_aligned. C81_equal: comparison. C81_assignment: the converting assignment is undefined behaviour. operator new[] by contract (GivenOut)."
  },
  {
   "property": "C82",
   "status": "partial",
   "theorems": [
    "DDC.Props.C82_advects_partial",
    "DDC.Props.C82_reads_outside",
    "DDC.Props.C82_inside",
    "DDC.Props.C82_past_the_end",
    "DDC.Props.C82_time",
    "DDC.Props.C82_energy",
    "DDC.Props.C82_mass",
    "DDC.Props.C82_shift",
    "DDC.Props.C82_example",
    "DDC.Props.C82_returns"
   ],
   "note": "main of characteristics_advection.cpp (periodic, as the file is) with any rounding to nearest of relative error 2^-53 (no overflow or underflow, no fused multiply-add), external solvers by the contract Lapack.Backward, all schedules. C82_advects_partial: if no foot is rounded to just below the upper end (FeetInside), main ends and each step advects each line up to 4 kappa (the error of the builder, C75, at most 1/12) and n 2^-35. C82_reads_outside: otherwise main reads a coefficient past the end; C82_past_the_end: sound parameters for which it does, so the claim is false in general; C82_inside: it does not when the displacement is not within n 2^-42 of whole cells; C82_example: nor for the constants of the program. C82_time; for every run that ends: C82_energy, C82_mass, C82_shift, C82_returns."
  },
  {
   "property": "C83",
   "status": "proved",
   "theorems": [
    "DDC.Props.C83_uniform",
    "DDC.Props.C83_conservation",
    "DDC.Props.C83_steps",
    "DDC.Props.C83_example",
    "DDC.Props.C83_overshoot",
    "DDC.Props.C83_step_count"
   ],
   "note": "Model of main of uniform_heat_equation.cpp with a rounding after every operation (the time loop is the one of C76 with the rounded addition and increments). C83_uniform: ends, number of steps, coordinates of the points, temperatures near those of the exact scheme, maximum principle, all with explicit tolerances; C83_conservation; C83_steps: when the number of steps is the exact one; C83_example: the constants of the program; C83_step_count: numbers of steps that do not fit are undefined. C83_overshoot: without a tolerance the maximum principle is false (3 + 2^-51 from temperatures 0 and 3). No overflow and no underflow (unbounded exponents); display left out."
  },
  {
   "property": "C84",
   "status": "proved",
   "theorems": [
    "DDC.Props.C84_uniform",
    "DDC.Props.C84_conservation",
    "DDC.Props.C84_non_uniform",
    "DDC.Props.C84_example",
    "DDC.Props.C84_unresolved"
   ],
   "note": "Model of main of heat_equation.cpp and non_uniform_heat_equation.cpp with a rounding after every operation (the time loop is that of C76 and C77). C84_uniform: the conclusions of C83 for the program that computes with distances; C84_conservation: with equally spaced points the sum of the temperatures is conserved up to the tolerance; C84_example: the constants of the program. C84_non_uniform: ends, points and distances near the exact ones, number of steps, temperatures near those of the exact scheme with the computed distances, maximum principle, with explicit tolerances. C84_unresolved: without the hypothesis on the distance between points the number of steps is undefined. The random generator is any sequence of displacements; no overflow and no underflow (unbounded exponents); display left out; a zero product of distances is undefined in the model where the code has an infinite maximum that makes the later conversion undefined."
  },
  {
   "property": "C85",
   "status": "partial",
   "theorems": [
    "DDC.Props.C85_fft",
    "DDC.Props.C85_ifft",
    "DDC.Props.C85_rfft",
    "DDC.Props.C85_inverse",
    "DDC.Props.C85_irfft",
    "DDC.Props.C85_inverse_real",
    "DDC.Props.C85_wave_numbers_partial",
    "DDC.Props.C85_example",
    "DDC.Props.C85_unresolved"
   ],
   "note": "Coefficients of FULL, fft and ifft on complex and real data for all normalisations, their composition, and wave numbers, with every operation of DDC rounded, for all ranks, sizes and data. Contracts: the transforms of Kokkos-FFT are accurate to a tolerance eta (FFTLibrary.Accurate, with an instance for every positive eta), Kokkos::sqrt to one rounding (with an instance). Partial: wave numbers up to 2^31 points (C49_space_overflow), meshes that are resolved (C85_unresolved shows a division by zero otherwise), single precision, overflow and underflow not modelled."
  },
  {
   "property": "C86",
   "status": "partial",
   "theorems": [
    "DDC.Props.C86_reference",
    "DDC.Props.C86_modes",
    "DDC.Props.C86_conservation",
    "DDC.Props.C86_example",
    "DDC.Props.C86_overrun"
   ],
   "note": "The spectral heat equation with every operation rounded: termination, number of steps, points, temperatures against exact arithmetic in the Euclidean norm, growth, conservation, and the constants of the program. Contract: the Fourier library is accurate to a tolerance eta (C85). Partial: 2 to 2^31 points per dimension, at most 2^49 steps, domains at most 2^20 times their length away from the origin; overflow and underflow not modelled; the display is not modelled. C86_overrun shows that the steps go beyond the end of the interval."
  },
  {
   "property": "C87",
   "status": "proved",
   "theorems": [
    "DDC.Props.C87_schedule",
    "DDC.Props.C87_heat",
    "DDC.Props.C87_distances",
    "DDC.Props.C87_non_uniform",
    "DDC.Props.C87_mean",
    "DDC.Props.C87_ends",
    "DDC.Props.C87_spectral",
    "DDC.Props.C87_spectral_mean",
    "DDC.Props.C87_spectral_time",
    "DDC.Props.C87_advection",
    "DDC.Props.C87_advection_mean"
   ],
   "note": "Model of the output loop shared by the five example programs in time (step, displays and exchange are parameters), of display, and of main of all five programs with its output. C87_schedule: exactly the states 0, P, 2P, ... and N are shown, in order, for any invariant-preserving step and exchange. C87_heat, C87_distances, C87_non_uniform: the records shown (time, mean, slice index, line of temperatures) are those of the scheme, whatever the orders, and the program ends as without its output (C76, C77). C87_spectral: the same for heat_equation_spectral.cpp, the states given by their modes (C79). C87_advection: the same for characteristics_advection.cpp, each state related to the one before as in C80. C87_mean, C87_spectral_mean: the mean shown by the two uniform programs and the spectral one is the initial one; C87_advection_mean: that of the periodic advection up to 8 k n W / 10^12. C87_ends: first and last time, strictly increasing times. C87_spectral_time: the time shown by the spectral program is before the one its steps have reached, except when they divide the interval. Exact arithmetic; the host copy before each display is left out (copies are C18) and the text is C51."
  },
  {
   "property": "C88",
   "status": "proved",
   "theorems": [
    "DDC.Props.C88_mean",
    "DDC.Props.C88_between",
    "DDC.Props.C88_nonneg",
    "DDC.Props.C88_empty",
    "DDC.Props.C88_above",
    "DDC.Props.C88_heat",
    "DDC.Props.C88_distances",
    "DDC.Props.C88_example"
   ],
   "note": "The mean in display of the five time-stepping examples with a rounding after every operation: error bound ((1+2^-53)^n-1) times the mean of the absolute values, bounds between extreme values, sign, and the witness that the mean of equal values can exceed them (C88_above). C88_heat and C88_distances follow uniform_heat_equation.cpp and heat_equation.cpp from the initial temperatures to the mean shown at the end; C88_example has the constants of the first. The exponent is not bounded; the empty domain is a division by zero (C88_empty)."
  }
 ]
}
