# Formal model of DDC in Lean 4 – design

The code under study is `/repo` (CExA-project/ddc, C++20).  Nothing is built or
run; the model was written by reading the sources.  Every definition of the
model carries a comment with the file and lines it mirrors and says where it
simplifies.

## 1 Layout

| path | role |
|---|---|
| `properties.jsonl` | the English claims C01, C02, ... |
| `lean/Verif/Model/*.lean` | executable model of the code, function by function, with citations |
| `lean/Verif/Spec/*.lean`  | small independent specifications (sets of points, Cox–de Boor recursion, a reader of `.npy` files, the discrete Fourier transform, ...) |
| `lean/Verif/Lemmas/*.lean` | helper lemmas |
| `lean/Verif/Props/*.lean` | property theorems `Cxx_...`, beside `example`s meeting their hypotheses |
| `seeded/LOG.jsonl` | wrong programs tried against the theorems |
| `MANIFEST.json` | status and theorems per property (generated by `tools/gen_manifest.py` from the sources and `tools/notes.json`) |

A theorem with suffix `_partial` proves the claim under a restriction that the
claim does not have; the note in `MANIFEST.json` and section 5 say which.  A
theorem that exhibits a case in which the *code* contradicts the claim is named
after the case (`C05_size_wraps`, `C23_exclusive_in_place`, ...).

## 2 Trusted base

* **Lean 4.33.0's kernel.**  No `sorry`, no `admit`, no added axiom, no
  `native_decide`, no `bv_decide`, no `implemented_by`, no `unsafe`.
* **Axioms.**  Every theorem depends at most on `propext`, `Classical.choice`
  and `Quot.sound`; the appendix lists the set of each theorem.
* **Mathlib 4.33.0** (checked by the same kernel).
* **The reading of the code**: that the definitions in `Model/` mean what the
  cited C++ lines mean.  Mutation testing (`seeded/LOG.jsonl`) shows that the
  theorems notice realistic mistakes *in the model*; it cannot show that the
  transcription is right.
* **Contracts of libraries**, each visible as a structure or hypothesis, with
  an instance or example that shows that it can be met:
  mdspan / `submdspan` (offset formulas), `kokkos_malloc`/`kokkos_free`, `Kokkos::deep_copy`,
  `Kokkos::parallel_for/reduce/scan` (every iteration once, any order, any
  partition, any joining tree), Kokkos reducers, LAPACK/Kokkos Kernels
  factorisations (exact: `exactLapack_exact` is an instance; in C74 only a bound of the residuals), Ginkgo (returns a
  solution when it reports convergence), KokkosFFT/FFTW (exact transform), PDI
  (records the calls), iostreams (append bytes).
* **Numbers.**  Floating-point numbers are elements of an arbitrary linearly
  ordered field (ℝ and ℂ for Fourier transforms); rounding, infinities and NaN
  are outside of the model.  Exceptions: C53 (coordinates) is proved for
  arbitrary operations, hence also for rounded ones; C21–C24 for any monoid;
  `modulo` in C57, the search of cells in C58, the Greville points in C59, the values of B-splines in C60 and of
  splines in one dimension in C61 and in several dimensions in C63 and C72, uniform and periodic samplings in C62, reductions and scans in C64, first derivatives of B-splines in C65, all derivatives of B-splines and of splines in one dimension in C67 and in several dimensions in C71, integrals of B-splines and of splines in one dimension in C69 and in several dimensions in C73, the assembly of the interpolation matrix in C70 and the solution of the linear systems in C74 and interpolation as a whole in C75, the advection and the heat equation of the examples in C82, C83, C84 and C86, the mean that they show in C88, Fourier transforms in C85 for rounded operations
  (`RoundsAll`; `round53` is the rounding of IEEE 754 with an unbounded exponent).

## 3 General modelling decisions

* `std::size_t` is `BitVec 64` (modular arithmetic) wherever wrap-around could
  matter; `std::ptrdiff_t` is `BitVec 64` read as a signed number, and `int` a
  bounded integer; operations that are undefined on signed overflow have the
  outcome `ub`.
* The outcome of a function is `Res`: `ok v`, `ub` (undefined behaviour),
  `throw`, `abort` (failed assertion, `std::terminate`) or `ill` (does not
  compile: a violated `static_assert`/`requires`).  None of them is assumed
  away: a theorem that ends in `= .ok v` excludes the others.  Assertions are
  modelled as enabled.
* A C++ tag pack is a list of tags.  A `DiscreteElement<Tags...>` is the list of
  pairs (tag, value) in pack order.
* Storage of a chunk is a memory of allocations; the layout is the mdspan offset
  formula (`layout_right`, `layout_left`, `layout_stride`).
* Parallel execution: the theorems quantify over all schedules – permutations
  of the iteration space, chunkings, joining trees.  `parallel_for_each` is also
  run with interleaved iterations (`Model/Interleave`): there one read or one
  write is atomic.  Elsewhere one iteration is atomic.  The order of several
  kernels and of the host is the subject of C66 (`Model/Async`); elsewhere a
  kernel has run when the call returns.
* External libraries by their contract, see section 2.

## 4 Parts of the code that are modelled, and parts that are not

| source (`src/ddc/...`) | model | properties |
|---|---|---|
| `detail/type_seq.hpp` | `TypeSeq` | C01 |
| `discrete_element.hpp`, `discrete_vector.hpp` | `Tuple`, `Element` | C02–C04 |
| `discrete_domain.hpp` | `Domain` | C05–C11 |
| `strided_discrete_domain.hpp` | `Strided` | C06–C08, C10, C11, C13 |
| `sparse_discrete_domain.hpp` | `Sparse` | C07, C08, C10, C11, C14 (`take_*`/`remove_*` do not compile when instantiated) |
| `chunk.hpp`, `chunk_span.hpp`, `chunk_common.hpp` | `Chunk`, `Ownership` | C15–C17 |
| `kokkos_allocator.hpp` | `Ownership` | C17 |
| `create_mirror.hpp`, `parallel_copy.hpp`, `parallel_deepcopy.hpp`, `parallel_fill.hpp`, `detail/kokkos.hpp` | `Copy` | C18 |
| `for_each.hpp`, `parallel_for_each.hpp`, `parallel_transform.hpp`, `ddc_to_kokkos_execution_policy.hpp` | `ForEach`, `Interleave` | C12, C19 |
| `for_each_block.hpp/.cpp` | `Block` | C20 |
| `transform_reduce.hpp`, `parallel_transform_reduce.hpp`, `parallel_transform_scan.hpp`, `reducer.hpp` | `ForEach`, `Reducer` | C21–C24 |
| `discrete_space.hpp/.cpp`, `scope_guard.cpp`, `detail/dual_discretization.hpp`, `trivial_space.hpp` | `Space`, `DeviceSpace` | C25, C68 |
| `uniform_point_sampling.hpp`, `non_uniform_point_sampling.hpp`, `periodic_sampling.hpp` | `Sampling` | C26–C29 |
| `kernels/splines/bsplines_uniform.hpp`, `bsplines_non_uniform.hpp` | `BSplines` | C30–C35 |
| `kernels/splines/integrals.hpp` | `Integrals` | C36 |
| `greville_interpolation_points.hpp`, `knots_as_interpolation_points.hpp` | `Points` | C37 |
| `splines_linear_problem*.hpp/.cpp` | `Linear` | C38–C40, C54 |
| `spline_builder.hpp` | `Builder`, `BuilderDomains`, `Quadrature` | C41–C43, C47, C48 |
| `spline_builder_2d.hpp`, `spline_builder_3d.hpp` | `MultiBuilder` | C46 |
| `spline_evaluator.hpp`, `_2d`, `_3d`, `_nd`, `*_extrapolation_rule.hpp` | `Evaluator`, `Quadrature` | C42, C44, C45, C55 |
| `kernels/fft.hpp/.cpp` | `FFT` | C49 |
| `save_npy.hpp/.cpp` | `Npy` | C50 |
| `print.hpp/.cpp` | `Print` | C51 |
| `pdi.hpp/.cpp` | `Pdi` | C52 |
| `detail/tagged_vector.hpp`, `coordinate.hpp` | `Coordinate` | C53 |
| `detail/tuple/impl/{tuple,creation,apply,helper}.hpp` | `CexaTuple` | C56 |
| `kernels/splines/math_tools.hpp` | `MathTools` | C57 |
| cell search of the B-splines and periodic wrap, with rounding | `Rounded` | C58 |
| Greville points (uniform sampling; non-uniform, not periodic), with rounding | `RoundedPoints` | C59 |
| Greville points (periodic non-uniform; edges of uniform B-splines with `GREVILLE` closures; selection of those of non-uniform B-splines), with rounding | `RoundedEdgePoints` | C59 |
| `eval_basis` and the evaluation of splines in one dimension, with rounding | `RoundedBasis` | C60, C61 |
| constructor of non-uniform B-splines (periodic knots), with rounding | `RoundedKnots` | C60, C61, C63 |
| `eval_deriv`, with rounding | `RoundedDeriv` | C65 |
| `eval_basis_and_n_derivs` and the derivatives of splines in one dimension, with rounding | `RoundedNDerivs` | C67 |
| `integrals` and `integrate` in one dimension, with rounding | `RoundedIntegrals` | C69 |
| `integrate` of the four evaluators, on a batch domain, with rounding | `RoundedQuadrature` | C73 |
| `compute_offset`, the creation of the matrix and `build_matrix_system` of `SplineBuilder` for closures `PERIODIC` and `GREVILLE`, with rounding; not the Hermite rows | `RoundedBuilder` | C70 |
| `dense2coo`, `compute_schur_complement`, `spdm_minus1_1`, `setup_solver` and `solve` of the linear problems, with rounding; the factorizations by a bound of their residuals | `RoundedLinear` | C74 |
| The constructor, `check_valid_grid` and `operator()` of `SplineBuilder` for closures `PERIODIC` and `GREVILLE`, with rounding; not the Hermite closures | `RoundedApply` | C75 |
| `eval_no_bc` in two, three and any number of dimensions, derivatives included, with rounding | `RoundedTensor` | C63, C71 |
| `eval` in one, two, three and any number of dimensions (reduction of periodic coordinates, choice of a rule), constant extrapolation rules, with rounding; not the loops on meshes (C44) | `RoundedEval` | C72 |
| uniform and periodic samplings, with rounding | `RoundedSampling` | C62 |
| launches, fences and temporaries of the builders, solvers, evaluators, `integrals`, `fft`, `create_mirror_and_copy`, sparse domains | `Async` | C66 |
| `reducer::sum`, `reducer::prod` on floating-point numbers in reductions and scans | `RoundedReducer` | C64 |
| `/repo/examples/uniform_heat_equation.cpp` without its display | `HeatEquation`, `View` | C76 |
| `/repo/examples/heat_equation.cpp`, `/repo/examples/non_uniform_heat_equation.cpp` without their displays | `HeatSampling` | C77 |
| `/repo/examples/game_of_life.cpp` with the memory that is printed instead of the text | `GameOfLife` | C78 |
| `/repo/examples/heat_equation_spectral.cpp` without its display | `SpectralHeat` | C79 |
| `/repo/examples/characteristics_advection.cpp` without its display | `Advection` | C80 |
| `aligned_allocator.hpp` | `AlignedAllocator` | C81 |
| `/repo/examples/characteristics_advection.cpp` with `PERIODIC_DOMAIN` (as the file defines it), without its display, with rounding | `RoundedAdvection` | C82 |
| `/repo/examples/uniform_heat_equation.cpp` without its display, with rounding | `RoundedHeat` | C83 |
| `/repo/examples/heat_equation.cpp` and `/repo/examples/non_uniform_heat_equation.cpp` without their displays, with rounding | `RoundedHeatSampling` | C84 |
| `kernels/fft.hpp` and `kernels/fft.cpp` on `double` data, with rounding; Kokkos-FFT and `Kokkos::sqrt` by contract | `RoundedFFT` | C85 |
| `/repo/examples/heat_equation_spectral.cpp` without its display, with rounding | `RoundedSpectral` | C86 |
| `display` of the three explicit heat equations and the output of their loops, without host copies and text; the output loop of all five programs in time | `HeatOutput` | C87 |
| `display` and the output of `/repo/examples/heat_equation_spectral.cpp`, without host copies and text | `SpectralOutput` | C87 |
| `display` and the output of `/repo/examples/characteristics_advection.cpp`, without host copies and text | `AdvectionOutput` | C87 |
| the mean in `display` of the five programs in time and its call in `/repo/examples/uniform_heat_equation.cpp` and `/repo/examples/heat_equation.cpp`, with rounding | `RoundedOutput` | C88 |

Not modelled: `detail/macros.hpp`, `config.hpp`, type traits without run-time
content (`chunk_traits.hpp`, `view.hpp`, `spline_traits.hpp`), the examples
other than those of the table, benchmarks, tests; compile-time overload resolution and `noexcept`/`constexpr`
qualifiers except where a claim depends on them (C20);
formatting of a scalar, demangling of type names; failures of the file system.

## 5 Per property: model, proof, restriction

"Full" means that the theorems prove the whole claim in the model.

| id | what is modelled | how it is proved | state |
|---|---|---|---|
| C01 | metafunctions as functions on lists of tags | induction on lists | full |
| C02 | elements/vectors as tagged lists: constructors, select, take, == | lookup lemmas | full |
| C03 | 64-bit element arithmetic | `BitVec` ring laws lifted over tags | full |
| C04 | vector arithmetic with `ub` on signed overflow | refinement to exact integers | `a - b` negates first: `C04_sub_not_exact` |
| C05 | contiguous domains on 64-bit bounds | refinement to products of integer intervals | size is exact modulo 2^64: `C05_size_wraps` |
| C06 | take/remove of contiguous and strided domains | set partition | full |
| C07 | `operator()`, `distance_from_front` of the three kinds | round trips | full |
| C08 | `operator==` of the three kinds | extensionality of point sets | wrapping sizes, strides at extent 1: `C08_eq_wraps`, `C08_strided_eq_stride` |
| C09 | `restrict_with` with its assertions | set intersection | full |
| C10 | products, select, remove_dims_of, replace_dim_of of the three kinds | membership lemmas by induction over tags | full |
| C11 | iterator classes | laws of integer offsets | strided difference: `C11_strided_difference_wrong` |
| C12 | nested loops of `for_each` | trace = sorted enumeration, induction on rank | full |
| C13 | strided domains with division by the stride | membership = progression | `C13_empty_contains_front`, `C13_zero_stride` |
| C14 | `lower_bound` loop | loop invariant and measure | full |
| C15 | layouts, chunk access | mixed radix bijection, induction on rank | full below 2^64 elements (`C15_wraps`) |
| C16 | slicing of spans | offset arithmetic, induction on rank | full; `C16_negative_displacement`, `C16_empty_outside` |
| C17 | heap, chunks as owners, histories of operations | invariant and refinement over operations | full |
| C18 | mirrors, deep and broadcast copies | pointwise equality for every order | full |
| C19 | parallel loops as permutations, and as interleavings of single reads and writes | commuting writes; invariant over interleavings | full |
| C20 | `ComputeBlockFn`, `distribute_blocks` | quotient/remainder arithmetic | total version: `C20_overflow`, `C20_empty_dimension` |
| C21 | recursive host reduction | fold over enumeration | full |
| C22 | parallel reduction as any tree over any partition | induction on trees | neutral argument unused: `C22_neutral_ignored` |
| C23 | two-pass scan | induction over chunks | `C23_exclusive_in_place` |
| C24 | reducer functors | algebra | full |
| C25 | discretisation store | invariant over histories | scoped histories; `C25_nested_guards`, `C25_without_guard`, `C25_same_name` |
| C26 | uniform sampling | field arithmetic | full |
| C27 | ghosted initialisations | index arithmetic | periodic: `C27_periodic_wraps` |
| C28 | non-uniform sampling | induction on point list | full |
| C29 | periodic sampling | modular arithmetic | `C29_int_overflow`, `C29_index_wraps` |
| C30, C31 | loops of `eval_basis` | loop invariant = Cox–de Boor triangle | C30 below 2^31 cells (`C30_many_cells`); C31 full |
| C32, C33 | derivative loops | polynomial identities | as C30; `C33_factor_overflow` |
| C34 | cell searches | loop invariant and measure | as C30 |
| C35 | knot construction loops | induction on loops | full |
| C36 | integrals | telescoping sums | `C36_few_cells` |
| C37 | interpolation point generators | counting and monotonicity | `C37_uniform_greville_fails`, `C37_few_cells`, `C37_knots_count` |
| C38 | packed storages | injectivity of index formulas, histories | full |
| C39 | block solvers | matrix algebra with exact sub-solvers; `C39_nearby` bounds the effect of dropped entries | entries below 1e-14: `C39_tiny_entries` |
| C40 | column chunks of the sparse solver | arithmetic | full (`C40_no_column`) |
| C41 | builder: constructor, right-hand side, solve, write-back | exact-solver contract + C30, C31, C38, C39 | `C41_symmetric_storage`, `C41_knots_even_degree`, `C41_negative_offset`, `C41_few_cells`; small entries: only up to a bound (`C41_approximates_partial`); construction proved for the Greville points: uniform, any degree (`C41_periodic_partial`, `C41_open_partial`; main block positive definite by a sum of squares, problem well posed by the theorem of Schoenberg and Whitney, `C41_well_posed`), non-uniform and open, any degree (`C41_nonUniform_partial`), non-uniform and periodic up to degree 3 (`C41_nonUniform_periodic_partial`; diagonal dominance with weights) and for an odd number of cells and any degree if the shift is right (`C41_nonUniform_odd_partial`; zeros of periodic splines); fails for higher degrees (`C41_dropped`, `C41_negative_offset_greville`) |
| C42 | periodic write-back and evaluation | periodicity of knots | hypotheses of C41; `C42_deriv_not_periodic` |
| C43 | quadrature coefficients | transposed system | `C43_homogeneous`, `C43_shift_ignored` |
| C44, C45 | evaluators of 1, 2, 3 and N dimensions | decision logic, nested sums | as C30, C33 |
| C46 | 2D and 3D builders | composition of 1D interpolations | hypotheses of C41; `C46_mixed_not_needed`, `C46_mixed_rejected` |
| C47 | grid validation | loop invariant | `C47_skipped_cells`, `C47_missed_end`, `C47_accepted_singular` |
| C48 | domains handed out by the builder | domain algebra | even degree with HERMITE: `C48_even`, `C48_even_upper` |
| C49 | Fourier meshes, normalisations | discrete Fourier transform over ℂ | exact libraries; `C49_space_overflow`, `C49_full_one_point` |
| C50 | byte-level writer of `.npy` | round trip with an independent reader | full |
| C51 | printer recursion, option store | trace equality, invariant | full (`C51_race`) |
| C52 | `PdiEvent` call trace | induction over calls | full (`C52_cstring_dangles`) |
| C53 | TaggedVector algebra | as C02–C04, any operations | `C53_scalar_alias` |
| C54 | factory of linear problems | arithmetic of the memory criterion | `C54_periodic_overflow` |
| C55 | `integrate` of the evaluators | sums of integrals | `C36_few_cells` |
| C56 | `cexa::tuple` | induction on stores | `C56_eq_incomparable`, `C56_cat_moves_lvalues` |
| C57 | `sum`, `modulo` (with rounding), `ipow`, `factorial`, `dot_product`, `min`, `max` | loop invariants; error bound of the rounded quotient | `C57_factorial_wraps`, `C57_ipow_min`, `C57_modulo_large` |
| C58 | knots, cell search and wrap with a rounding after every operation | error analysis for every rounding | `C58_past_the_end`, `C58_far_aborts` |
| C59 | Greville points with a rounding after every operation | monotonicity and error analysis for every rounding; periodic: the errors of the periodic knots, so that the points counted outside the domain are the same up to the wrapped copies; edges: the points are near those of C37, whose distances are multiples of 1/(2p) cells | `C59_aborts`, `C59_uniform_past_the_end`, `C59_periodic_throws`, `C59_edges_past_the_end`, `C59_edges_abort`; edges: degrees up to 8 as in C37; periodic: cells larger than the accuracy of the coordinates |
| C60 | `eval_basis` with a rounding after every operation | the computed triangle compared with the exact one in the ℓ¹ norm and, for non-uniform B-splines, entry by entry; continuity at the knots when the computed cell is a neighbour | `C60_past_the_end`, `C60_below`, `C60_tiny_cell_throws` |
| C61 | `eval_no_bc` in one dimension with rounding; the wrap of the evaluators of periodic splines | error of a sum of products, and C60; error of the wrapped coordinate | `C61_past_the_end`; accuracy of non-uniform periodic evaluators when the wrapped coordinate falls just outside of the domain; derivatives |
| C62 | `init`, `init_ghosted`, `coordinate`, `rmin`, `rmax`, `rlength` of samplings with rounding | forward error of each operation, monotone rounding | periods above `2^31` (`C29_int_overflow`); `C62_last`, `C62_ghosted_first`, `C62_coincide` are what rounding destroys |
| C63 | `eval_no_bc` in two, three and any number of dimensions with rounding | error of nested sums of products by induction on the list of dimensions, telescoping between computed and exact values, and C60 | coordinates next to the upper end of a uniform dimension (`C61_past_the_end`) |
| C64 | reductions on the host and in parallel, scans, with rounded `sum` and `prod` | the result of every schedule is a combination of the elements in the sense of `Combines` (no assumption on the operation), then induction on the combination | the exponent is not bounded (no overflow, underflow, NaN); values are representable; `C64_schedules_differ` |
| C65 | `eval_deriv` with a rounding after every operation | relative error of every entry of the triangle (non-uniform), ℓ¹ error from the rounded inverse of the step (uniform), differences of slopes compared with the derivative of the piece; the two slopes for uniform B-splines of degree 1 | `C60_past_the_end` |
| C66 | the host thread, the instances and the kernels that wait, at the granularity of buffers; the commands of each function | invariant: the kernels that wait, run in the order of their launches, followed by the commands that remain, give the final buffers; kernels of different instances that do not conflict change places; liveness of buffers by a calculus of the live buffers of a program | elements of a buffer are not told apart; `kokkos_free` waits for the kernels (`C66_needs_waiting_free`); kernels of the host space run when they are launched (`C66_schur_needs_synchronous_host`) |
| C67 | `eval_basis_and_n_derivs` and `deriv` with a rounding after every operation | the coefficients of the recursion have alternating signs, so that every one of them, and every entry of the triangle (non-uniform), is computed with a small relative error; sums compared with the sum of the absolute values of their terms; the derivative of a piece is the exact sum (C33) | factors `p!/(p-k)!` of type `int` (`C33_factor_overflow`); `C60_past_the_end`; derivatives in several dimensions |
| C68 | `DualDiscretization`, the device variables, the copies to them and the buffers of points, on two heaps | refinement of a specification without device: invariant of ownership of the buffers and agreement of host, mirror and device variable over histories | dimensions that are not initialised are not refused by kernels (`C68_never_initialised`, `C68_after_guard`, `C68_stale_scalars`); failures of the copy (`C68_copy_fails`, `C68_copy_of_knots_fails`); kernels that still run when the guard ends; `C25_*` |
| C69 | `integrals` and the loop of `integrate` with a rounding after every operation | relative errors of products without cancellation (non-uniform); errors of the triangle of degree `p + 1` at offset 0 and of two sums, compared with the exact sums of C36 (uniform); sums compared with the sum of the absolute values of their terms | periodic non-uniform B-splines with respect to the computed knots; `integrate` of periodic splines and in several dimensions not with rounding |
| C70 | the constructor of `SplineBuilder` up to `setup_solver`, with a rounding after every operation | the writes in the storages of C38 and C54 as in C41, with the computed values of C60; entries without a place are exactly zero (non-uniform: relative errors and supports) or products of three small factors (uniform, odd degrees); the points are located up to the errors of C58 and C59; symmetry and the two largest values of the cardinal B-splines | `C70_degree_one_aborts`; closures `HERMITE`; the factorization and the solution |
| C71 | `eval_no_bc` in two, three and any number of dimensions with orders of derivation, with rounding | the error of the tensor product of C63 stated for arbitrary weights with a bound of the sum of their absolute values; the weights are those of C67, identified with the derivatives of the pieces of the Cox-de Boor recursion by uniqueness of the polynomial on an interval | the coordinates of C63; factors that are not of type `int` (`C33_factor_overflow`) |
| C72 | `eval` of the four evaluators and the constant rules with rounding | case analysis on the sides, induction on the list of dimensions for the first rule; the reduced coordinate as in C61; a coordinate just outside of a uniform dimension gives the same cell and offset as the end; the constant rules are the evaluation at the clamped point, by definition of both | accuracy at the coordinates excluded in C63 and when a reduced coordinate is just outside of non-uniform B-splines; coordinates farther than 16 periods (`C58_far_aborts`) |
| C73 | `integrate` of the four evaluators with rounding, both orders of the products, all orders of the batch | the nested loops are the loop over tuples of indices of C63; errors of products and sums; the computed integrals of C69 are compared with the exact ones in each dimension, for periodic non-uniform knots through the error of the translated knots; the exact sum is the iterated integral (C55). `_partial`: uniform B-splines that are not periodic with fewer cells than the degree (C36), periodic non-uniform B-splines with fewer cells than the degree. |
| C74 | `setup_solver` and `solve` of all direct linear problems with a rounding after every operation | the right-hand sides as functions, invariants of the loops with one term and one rounding for each non-zero; norms of columns; block elimination with perturbed factors by induction on the nesting of the blocks; the external solvers by the contract `Lapack.Backward` (a bound of the residual relative to the computed solution, of which the exact solver is an instance) | the bound of the residual mentions the sums of the columns of the computed `Q⁻¹ γ` (they are finite, `C74_bound_exists`; no bound in terms of the matrix only); the iterative solver |
| C75 | the constructor and `operator()` of `SplineBuilder` with a rounding after every operation, for closures `PERIODIC` and `GREVILLE` | the matrix of C70, the solver of C74, the moves of rows of C41; the row of the system is the value of the spline up to the errors of the entries | non-uniform, not periodic; uniform periodic at their Greville points, at most 35000 cells, even degrees, odd degrees above one when the points are not just below knots, cubic (degree one aborts: `C70_degree_one_aborts`); for cubic periodic splines also bounds of the coefficients and of the errors by the data; missing: the closures `HERMITE`, uniform B-splines that are not periodic, and non-uniform periodic B-splines; else the bound is a residual relative to the computed coefficients, not a distance to the exact coefficients |
| C76 | `main` of the heat equation: initialisation of the samplings, mirrors, allocation, copies to the ghosts, kernel, swap | charts of views (`Lemmas/Grid2`: the cell of each point through slices and restrictions) give the cells written by each copy and iteration; any order of a kernel by an injectivity argument; invariant over the time steps; maximum principle and sum of the scheme on the torus | exact arithmetic; the display is left out; the torus has `n` points at distance `(end - start)/(n - 1)`, so its length is not `end - start` |
| C77 | the two other explicit programs for the heat equation: `distance_at_left`, `distance_at_right`, the reduction that gives the time step, the generator of displaced points with the random numbers as a parameter, the extrapolation of the ghost points | the same invariant over the time steps as C76 with other increments; the reduction by `host_transform_reduce` is the greatest value; displaced points increase; discrete fluxes cancel on the torus when the first and the last distance agree | exact arithmetic; the displays are left out; `C77_conservation_partial` needs equal first and last distances: `C77_not_conserved` and `C77_not_periodic` show that the rest of the claim is false |
| C78 | `blinker_init`, the kernel with its loops over the neighbours, the copies to the host and back, `main` | charts of the three chunks (`Lemmas/Grid2`); each iteration sets its cell or finds that it already has its new value (`fold_change`), so any order gives the generation; invariant: both device chunks hold the same board | the text printed is that of C51 on the recorded memory; `nt`, `length`, `height` are arguments |
| C79 | `main` of the spectral program: domains without the periodic point, time step, initial temperature, wave numbers, transforms, the kernel on the Fourier mesh, the loop | a round multiplies every mode by its factor: C49 for the transforms and the wave numbers, conjugate symmetry of the factors, iterations that each change one element (`fold_update`); induction over the rounds; Parseval's identity for the squares | real numbers, exact transforms; chunks are functions of the multi-index; from 2 to 2^31 points (C49); `C79_time_partial` needs an interval that is a multiple of the step: `C79_overrun` shows that the rest of the claim is false |
| C80 | `main` of the advection: B-splines and Greville points, the domain along `DDimY`, the time domain, the initial density, the kernel of the feet, the builder (C41), the evaluator (C44), the swap | the feet are those of the characteristics for any order; the builder and the evaluator by C41 and C44, for both kinds of dimension; induction over the time loop. In a periodic dimension the displaced spline is a cyclic convolution of its coefficients with the four weights of a cell (`Lemmas/CubicShift`); the sums of squares at the points and at the displaced points differ by a combination of squares of second and third differences of the coefficients with non-negative factors; the tolerance by a bound of the coefficients | exact arithmetic (an ordered field); exact external solvers; the display is left out; at most 35000 cells in a periodic dimension (bound of C41) |
| C81 | `allocate`, `deallocate`, comparison and assignment of `AlignedAllocator`; `operator new[]` and `operator delete[]` by contract, the array `new` expression with the layout of the Itanium ABI | invariant of the list of blocks over all histories | types without destructor (`C81_history_partial`); for the others the claim is false: `C81_destructor` (releasing is always undefined behaviour), `C81_not_aligned` |
| C82 | `main` of the advection with a rounding after every operation, the periodic variant | the computed position of each foot, after the wrap into the domain, is within `n 2^-43` cells of the exact one up to whole periods (`Lemmas/RoundedAdvection`); the spline is Lipschitz, also across the period; the builder by C75; then the argument of C80 with errors | partial: a foot that is rounded to just below the upper end makes the evaluator read past the coefficients (C61). `C82_advects_partial` asks that no foot is (`FeetInside`), `C82_inside` shows that it is so when the displacement is not close to whole cells, `C82_example` that it is so for the constants of the program; if it is not so, `main` is undefined (`C82_reads_outside`), which happens for sound parameters (`C82_past_the_end`). The theorems on runs (`C82_energy`, `C82_mass`, `C82_shift`, `C82_returns`) ask only that `main` ends |
| C83 | `main` of the uniform heat equation with a rounding after every operation; the time loop of C76, whose addition is a parameter | relative errors of the coefficients and of the number of steps (`Near`), forward error of a step relative to the largest temperature, then by induction on the steps: the sum of the coefficients exceeds 1 by at most `61 * 2^-53` | proved with a tolerance `(1 + 2^-45)^N - 1`; `C83_overshoot` shows that without tolerance the maximum principle is false |
| C84 | `main` of the two heat equations by distances between points, with a rounding after every operation; points, ghosts and distances as computed | errors of points, ghosts and distances (absolute, relative to the size of the coordinates), from which they are strictly increasing; then as C83 with coefficients and weights that depend on the point, for any samplers whose distances are right up to rounding | proved with the tolerances of C83; `C84_unresolved`: points that coincide once rounded are undefined behaviour |
| C85 | coefficients of FULL, `fft`, `ifft` (complex and real), `init_fourier_space` with a rounding after every operation of DDC; the library is accurate to a tolerance, the square root to one rounding | relative errors counted in roundings over the real numbers; `pi` of the program compared with pi by bounds of Mathlib; transforms bounded by sums of absolute values; the backward coefficient as an inverse of the forward one | proved up to 2^31 points for the wave numbers (`C49_space_overflow`) and for resolved meshes; `C85_unresolved`: where points coincide the coefficient of FULL is zero and its inverse a division by zero; single precision not modelled |
| C86 | `main` of the spectral program with a rounding after every operation: domains, time step, initial temperature, wave numbers, transforms (C85), the kernel on the Fourier mesh, the loop | the reference is exact arithmetic on the computed initial temperatures, given by its modes as in C79; the error of a step is bounded in the Euclidean norm (Parseval's identity), in which an exact step is a contraction; relative errors of wave numbers, time step and factors counted in roundings; induction over the rounds | the library is accurate to a tolerance (C85); from 2 to 2^31 points, at most 2^49 steps, domains at most 2^20 times their length away from the origin; `C86_overrun`: the steps go beyond the end of the interval, as in C79 |
| C87 | the output loop with the step, the displays and the exchange as parameters; `display`: reduction, size, slice, reading of the slice; `main` of the five programs with its output | invariant over the rounds: after `k` rounds the last output is at `k / P * P` and the multiples of `P` up to `k` have been shown; the invariant of C76 (which buffer holds which state, before and after the exchange) instantiates it; the slice by a displacement is that by an element (C16), the reduction is a double sum; for the spectral program the states are the successive results of its rounds, known by their modes as in C79, for the advection each related to the one before as in C80 | the schedule for any program of this form, the shown numbers for the five programs in exact arithmetic; in the spectral program and the advection the line is read through the elements of the chunk; the host copy is left out (C18), the text is C51 |
| C88 | the mean in `display`: reduction with `sum<double>`, size converted to `double`, division, a rounding after every operation | the reduction combines the values of the chunk once each (as in C64, for a function defined on the elements of the domain only); error of a sum of any shape, then that of the division; monotonicity of the rounding for the sign; for uniform_heat_equation.cpp and heat_equation.cpp the values at the end are those of C83 and C84, whose exact scheme conserves the sum | for the values that are in the chunk, whatever program computed them, and for the end of these two programs; exponent not bounded, no NaN: the division by zero for an empty domain is `ub` |

No property is considered inexpressible; the ones whose truth lies partly in
the runtime (C17, C18, C19, C22, C23, C25, C52) are modelled at the level of
the logic DDC adds on top of Kokkos/PDI.

## 6 Where the code and the claims disagree

Each entry is a theorem with a concrete witness unless marked *(read)*, which
is an observation without a theorem.

Indices and domains
* `DiscreteVector::operator-` negates its right operand first when the left
  pack is smaller: undefined for the smallest integer (`C04_sub_not_exact`).
* `==` of elements, vectors and coordinates is asymmetric when one pack
  contains the other (C02, `C53_eq_missing`).
* `size()` is a product modulo 2^64: a non-empty domain can have size 0, be
  `empty()`, and equal another one (`C05_size_wraps`, `C08_eq_wraps`); a chunk on such a domain is
  under-allocated (`C15_wraps`), also in bytes (`C17_bytes_wrap`).
* An empty strided domain may contain its front; stride 0 divides by zero (C13).
* Equal strided domains of extent 1 compare different (`C08_strided_eq_stride`).
* The difference of strided iterators is not divided by the stride (`C11_strided_difference_wrong`).
* `take_*`/`remove_*` of sparse domains do not compile *(read)*.
* Slicing lets a negative displacement and an empty slice outside of the domain
  through its assertions (`C16_negative_displacement`, `C16_empty_outside`).

Chunks, copies, algorithms
* Self-move of a chunk loses the contents (`C17_self_move`).
* `parallel_deepcopy` between empty domains of different extents throws (`C18_empty_extents`).
* `create_mirror_view` aliases the source in another accessible space (`C18_view_other_space`; documented).
* `for_each_block` with a total number overflows (`C20_overflow`), refuses empty dimensions
  (`C20_empty_dimension`) and terminates on unsuitable totals (`C20_total_terminates`).
* `transform_reduce` of rank 0 ignores `neutral`; the parallel one always does (`C22_neutral_ignored`).
* Exclusive scans whose functor reads the output cell are wrong (`C23_exclusive_in_place`).
* `land`/`lor` have no unit outside {0, 1} (`C24_logical_no_unit`).
* Nested scope guards, initialisation without a guard, two discretisations with
  one type name (`C25_*`).
* On a device nothing refuses a dimension that is not initialised: a kernel reads zeros, the scalars of the previous guard,
  or released points (`C68_never_initialised`, `C68_stale_scalars`, `C68_after_guard`).  When the copy to the device fails the
  initialisation throws but the dimension is initialised on the host and cannot be initialised again
  (`C68_copy_fails`, `C68_copy_of_knots_fails`).

Samplings and splines
* The last point of a uniform sampling of [a, b] can be larger than b, with ghost points the first point of the main
  domain can differ from a, and points closer than the resolution coincide (`C62_last`, `C62_ghosted_first`,
  `C62_coincide`; the documentation warns about the first two).
* Uniform B-splines: rounding can locate a coordinate at or next to the upper bound past the last
  cell, so that a coefficient out of bounds is read (`C58_past_the_end`: cubic splines on 10 cells of
  [0, 3.1] at x = 3.1; the correction in the code requires an offset of exactly zero; `C60_past_the_end`,
  `C61_past_the_end` for the evaluation).
* Non-uniform B-splines accept a coordinate below the first break point within the tolerance and do not clamp it, so
  that values of B-splines are negative (`C60_below`).
* The constructor of periodic non-uniform B-splines throws on some sorted break points with a first cell smaller than the
  resolution of the last one, because the rounded knots past the end are not sorted (`C60_tiny_cell_throws`).
* Periodic evaluators abort on coordinates far away, because the wrapped coordinate is out of tolerance
  (`C58_far_aborts`).
* The matrix of periodic uniform splines of degree 1 is stored as a diagonal, but the interpolation points are computed
  break points, at which the offset in the cell is not always computed as zero; the other B-spline of the cell then has a
  value above 1e-15 and the `assert` of `set_element` fails in the constructor of the builder (`C70_degree_one_aborts`: 20
  cells of `[0, 1]`); without assertions the value is lost.  Higher degrees are not affected (`C70_uniform_even_partial`,
  `C70_uniform_odd_partial`).
* With rounding, the last Greville point of non-uniform B-splines can lie outside of the domain by more than the
  tolerance, and the assertions fail when the builder is constructed (`C59_aborts`: cubic splines on
  `[21.5, 21.6]`).  The last point of uniform B-splines with `HERMITE` closures can be located past the last cell
  (`C59_uniform_past_the_end`: cubic splines on 100 cells of `[-2, 2.1]`), so that evaluating a spline at its own
  interpolation points reads a coefficient out of bounds.  With `GREVILLE` closures the ends of the domain are computed as
  `(degree * rmax) / degree`, which is not always `rmax`: the last point can be located past the last cell
  (`C59_edges_past_the_end`: cubic splines on 4 cells of `[-0.3, 0.9]`) or be outside by more than the tolerance
  (`C59_edges_abort`: 3 cells of `[234.9, 236.3]`).  With periodic cells of one unit in the last place, the points are
  not sorted and the constructor of the sampling throws (`C59_periodic_throws`).
* `PeriodicSampling`: ghost points of the second half period get wrapped
  coordinates (`C27_periodic_wraps`); int and index overflow (`C29_*`); `init_ghosted` is not static *(read)*.
* B-splines with 2^31 cells: undefined conversion to `int` (`C30_many_cells`).
* Derivatives of order ≥ 13 on non-uniform B-splines overflow a factor (`C33_factor_overflow`).
* Uniform non-periodic B-splines have no repeated end knots (C35).
* `integrals` of uniform B-splines with fewer cells than the degree read out of
  bounds (`C36_few_cells`).
* Greville points: not increasing for uniform splines with a mixed closure from
  degree 9 on (`C37_uniform_greville_fails`), out of the domain for few periodic cells (`C37_few_cells`);
  knots as interpolation points have the wrong number for even degrees (`C37_knots_count`).
* Entries below 1e-15 / 1e-14 are dropped from the matrices (`C38_write_outside`, `C39_tiny_entries`).
* The sparse solver divides by zero without columns (`C40_no_column`).
* The builder: negative offset (`C41_negative_offset`), storage of a
  non-symmetric matrix in a symmetric format (`C41_symmetric_storage`; `C41_knots_even_degree` for the points of
  `KnotsAsInterpolationPoints` with an even degree), few periodic cells (`C41_few_cells`).
  `compute_offset` looks at one point and finds a wrong shift for the Greville points of some
  non-uniform periodic meshes: degree 4 with one cell 4 times longer than the others
  (`C41_dropped`: assertion, or a dropped entry without assertions), degree 6 with three cells 30 times longer
  (`C41_negative_offset_greville`: access out of bounds).  It is right up to degree 3.
* `deriv` of an evaluator is not periodic (`C42_deriv_not_periodic`).
* `quadrature_coefficients`: homogeneous Hermite closures (`C43_homogeneous`), shift of unknowns (`C43_shift_ignored`).
* The assertion of `PeriodicExtrapolationRule` tests a string literal and never fails *(read)*.
* 3D builder: needs unneeded mixed derivatives (`C46_mixed_not_needed`), rejects HERMITE along
  dimension 3 only (`C46_mixed_rejected`).
* 1D builder: `derivs_xmin` is dereferenced before `has_value` is tested *(modelled as ub)*.
* `check_valid_grid` accepts overfull grids (`C47_*`).
* The builder aborts on its own derivative domains for even degrees (`C48_even`).
* The linear problem factory overflows `int` for large periodic problems: `C54_periodic_partial` and
  `C54_periodic_overflow` together say exactly when.

Other
* Fourier meshes: signed overflow (`C49_space_overflow`), one point (`C49_full_one_point`, `C49_space_one_point`).
* `save_npy` to a stream does not report failures of the stream *(read)*.
* `set_print_options` reads the old options outside of the lock (`C51_race`).
* PDI: C strings are shared by address (`C52_cstring_dangles`).
* `v += v.get<X>()` of coordinates is not tag-wise (`C53_scalar_alias`).
* `cexa::tuple`: `==` goes through `<=>` or `<` (`C56_eq_incomparable`,
  `C56_eq_needs_less`); `tuple_cat` moves from lvalues (`C56_cat_moves_lvalues`).
* The builders release temporaries that waiting kernels use and rely on a `kokkos_free` that waits
  (`C66_needs_waiting_free`).  Evaluators, `integrals` and `fft` return before their kernels have run
  (`C66_evaluator_returns_early`).  `compute_schur_complement` captures local views by reference and
  does not fence before the block is factorised: right only where a kernel on the host space has run
  when the launch returns (`C66_schur_needs_synchronous_host`).
* `kokkos_allocator.hpp`, `aligned_allocator.hpp`: the templated `operator=`
  has no `return` *(read)*.
* C77: `non_uniform_heat_equation.cpp` places the ghost points as if the first and the
  last point were the same one of a period of length `end - start` (the left ghost is the
  last but one point minus the period), but copies to them the temperatures of the last
  and of the first point. The distance from the last to the first point is then
  `x(n-1) - x(n-2)` seen from the first point and `x(1) - x(0)` seen from the last one: when
  they differ, the heat changes (`C77_not_conserved`). The first and the last point get
  different temperatures although the coordinates identify them (`C77_not_periodic`).
* C82: the advection of the examples on the domain from `-5` to `1` in 30 cells with
  `vx = -1` and steps of `0.2`, one cell, evaluates the spline at a foot that is rounded
  to just below the upper end; the cell is computed as 30 and a coefficient past the last
  one is read (`C82_past_the_end`, `C82_reads_outside`). The constants that the file has
  do not do so (`C82_example`).
* C83: the time step of uniform_heat_equation.cpp is the longest stable one; after rounding it may be longer by a few
  units of the last place, and a temperature may exceed the highest initial one by as much (`C83_overshoot`).
* C88: the mean that the examples show may be larger than all values, by one unit in the
  last place for three times 0.1 (`C88_above`).
* C84: points of non_uniform_heat_equation.cpp that are equal once rounded go through its assertions (`is_sorted` accepts
  equal points); the time step is zero, and an infinite number of steps is converted to an integer, which is undefined
  (`C84_unresolved`).
* C85: on a mesh whose end points are equal once rounded, FULL scales all modes by zero and the backward coefficient is `1 / 0`;
  no assertion checks it (`C85_unresolved`).
* C81: `AlignedAllocator::allocate` is an array `new` expression. For elements with a
  destructor it stores their number in front of them, so the address returned is that of
  the block plus 8 bytes or more: it is not aligned as asked (`C81_not_aligned`), and
  `deallocate` hands it to `operator delete[]` as if it were the block
  (`C81_destructor`). The assignment from another allocator type returns nothing
  (`C81_assignment`). `allocate` has not the signature that `Chunk` calls, so the class
  cannot be used with it.
* C79: `heat_equation_spectral.cpp` multiplies by `dt` (line 190), the longest stable
  step, while its time domain divides the interval from `start_time` to `end_time` in
  equal steps that are shorter. The temperatures that it shows for `end_time` are those
  of a later time, by up to one step (`C79_overrun`, `C79_time_partial`), and so are all
  the others that it shows after the initial ones (`C87_spectral_time`). The other
  examples multiply by `ddc::step<DDimT>()`.

## 7 Testing the theorems

`tools/mutate.py` applies wrong edits to a scratch copy of the model, rebuilds
it and records which theorems fail (`seeded/LOG.jsonl`).  An edit that leaves
the build intact is either equivalent (said so in the record) or leads to a
tightened or additional theorem.

## Appendix: axioms of the theorems

P = `propext`, C = `Classical.choice`, Q = `Quot.sound`; generated by `tools/gen_axioms.py` with `#print axioms`.

<!-- axioms begin -->
* **C01** – CPQ: `C01_replace`, `C01_decisions`; P: `C01_present`; PQ: `C01_rank`, `C01_rank_element`, `C01_remove`, `C01_merge`, `C01_merge_set`, `C01_cat`
* **C02** – CPQ: `C02_ctor`; PQ: `C02_select`, `C02_roundtrip`, `C02_get_or`, `C02_eq`, `C02_eq_equiv`, `C02_eq_perm`, `C02_eq_subpack_asymmetric`
* **C03** – P: `C03_inc_dec`, `C03_order`, `C03_reference`; PQ: `C03_add_exact`, `C03_sub_exact`, `C03_diff_exact`, `C03_cancel`, `C03_add_diff`, `C03_diff_add`, `C03_add_comm`
* **C04** – CPQ: `C04_add`, `C04_neg`, `C04_smul`, `C04_assign`, `C04_sub_partial`, `C04_group`; P: `C04_sub_not_exact`; PQ: `C04_scalar`
* **C05** – CPQ: `C05_ctor`, `C05_contains`, `C05_size`, `C05_front_back`; P: `C05_size_wraps`
* **C06** – CPQ: `C06_take_first`, `C06_take_last`, `C06_remove_first`, `C06_remove_last`, `C06_remove`, `C06_partition`, `C06_strided_take_last`, `C06_strided_remove_first`, `C06_strided_remove_last`, `C06_strided_remove`, `C06_strided_partition`; PQ: `C06_strided_take_first`
* **C07** – CPQ: `C07_position_to_element`, `C07_element_to_position`, `C07_ends`, `C07_strided_position_to_element`, `C07_strided_element_to_position`, `C07_strided_assert`, `C07_strided_ends`, `C07_sparse_position_to_element`, `C07_sparse_element_to_position`; PQ: `C07_sparse_out_of_range`, `C07_sparse_ends`
* **C08** – CPQ: `C08_eq_iff`, `C08_eq_equiv`, `C08_strided_eq_partial`, `C08_strided_eq_iff`, `C08_strided_eq_stride`, `C08_sparse_eq_iff`; P: `C08_eq_wraps`
* **C09** – CPQ: `C09_assertion`, `C09_intersection`, `C09_idempotent`
* **C10** – CPQ: `C10_product_wf`, `C10_product`, `C10_select`, `C10_remove_dims`, `C10_recompose`, `C10_replace_dim`, `C10_free_functions`, `C10_strided`, `C10_sparse`, `C10_sparse_product`, `C10_strided_product`, `C10_strided_free`, `C10_sparse_free`; P: `C10_strided_bool`; PQ: `C10_sparse_views`
* **C11** – CPQ: `C11_enumerates`, `C11_difference`, `C11_advance`, `C11_strided_enumerates`, `C11_strided_difference_partial`, `C11_strided_advance`; P: `C11_inc_dec`, `C11_strided_difference_wrong`, `C11_strided_inc_dec`; PQ: `C11_index`, `C11_end_begin`, `C11_sparse_enumerates`
* **C12** – CPQ: `C12_contiguous`, `C12_strided`, `C12_sparse`, `C12_rank0`; PQ: `C12_sparse_unsorted`
* **C13** – CPQ: `C13_contains_partial`, `C13_empty_contains_front`, `C13_front_back`, `C13_zero_stride`; PQ: `C13_size`
* **C14** – CPQ: `C14_contains`, `C14_distance`; P: `C14_size`; PQ: `C14_search_total`, `C14_search`
* **C15** – CPQ: `C15_chunk`, `C15_chunk_strided`, `C15_chunk_sparse`, `C15_left`, `C15_left_strided`, `C15_left_sparse`; P: `C15_wraps`; PQ: `C15_read_after_write`, `C15_mdspan`
* **C16** – CPQ: `C16_slice`, `C16_slice_sparse`, `C16_slice_strided`, `C16_restrict`, `C16_restrict_outside`; P: `C16_negative_displacement`, `C16_empty_outside`
* **C17** – CPQ: `C17_step`, `C17_linear`, `C17_no_leak`, `C17_defined`, `C17_values_step`, `C17_values`, `C17_labels`, `C17_sizes`, `C17_sizes_strided`, `C17_sizes_sparse`, `C17_room`, `C17_self_move`; P: `C17_bytes_wrap`
* **C18** – CPQ: `C18_contiguous`, `C18_strided`, `C18_sparse`; P: `C18_kokkos_padded`, `C18_view_other_space`; PQ: `C18_kokkos_roundtrip`, `C18_empty_extents`
* **C19** – CPQ: `C19_schedule`, `C19_all_orders`, `C19_independent`, `C19_parallel_transform`, `C19_interleaving`, `C19_transform_interleaving`; P: `C19_interleaving_ends`; PQ: `C19_race_free`; none: `C19_interleaving_progress`, `C19_racy`
* **C20** – CPQ: `C20_blocks`, `C20_blocks_strided`, `C20_distribute`, `C20_not_power`, `C20_total_partial`, `C20_total_strided_partial`, `C20_total_terminates`, `C20_overflow`, `C20_empty_dimension`
* **C21** – CPQ: `C21_host`, `C21_order`, `C21_empty`, `C21_sum`; PQ: `C21_rank0`, `C21_noexcept`
* **C22** – CPQ: `C22_any_plan`, `C22_unsigned`, `C22_sum`, `C22_neutral_ignored`
* **C23** – CPQ: `C23_scan`, `C23_unsigned`; PQ: `C23_exclusive_in_place`
* **C24** – CPQ: `C24_unsigned`; P: `C24_order`, `C24_minmax`, `C24_logical_no_unit`; PQ: `C24_meaning`, `C24_bxor`; none: `C24_semiring`
* **C25** – CPQ: `C25_lifetime_partial`, `C25_init`, `C25_release_partial`, `C25_display`, `C25_again`; PQ: `C25_tuple`, `C25_trivial`; none: `C25_nested_guards`, `C25_without_guard`, `C25_same_name`
* **C26** – CPQ: `C26_init`, `C26_strict`; PQ: `C26_requires`
* **C27** – CPQ: `C27_uniform`, `C27_non_uniform`, `C27_periodic_partial`, `C27_periodic_wraps`; P: `C27_exactly_one`; PQ: `C27_uniform_symmetric`, `C27_uniform_requires`, `C27_non_uniform_requires`, `C27_periodic_symmetric`
* **C28** – CPQ: `C28_accepts`, `C28_rejects`, `C28_init`, `C28_monotone`
* **C29** – CPQ: `C29_periodic_partial`, `C29_init`, `C29_int_overflow`, `C29_index_wraps`, `C29_rlength_negative`; PQ: `C29_coordinate_partial`, `C29_values_partial`, `C29_first_half`, `C29_requires`, `C29_constructor`, `C29_long_period`
* **C30** – CPQ: `C30_eval_basis_partial`, `C30_eval_basis_degree_partial`, `C30_requires`, `C30_clamps`, `C30_many_cells`
* **C31** – CPQ: `C31_eval_basis`, `C31_requires`
* **C32** – CPQ: `C32_uniform_partial`, `C32_non_uniform`
* **C33** – CPQ: `C33_uniform_partial`, `C33_non_uniform_partial`, `C33_factor_overflow`, `C33_rows_agree`, `C33_uniform_requires`, `C33_non_uniform_requires`
* **C34** – CPQ: `C34_uniform_partial`, `C34_uniform_outside`, `C34_non_uniform`, `C34_non_uniform_outside`
* **C35** – CPQ: `C35_non_uniform`, `C35_non_uniform_counts`, `C35_requires`, `C35_uniform`, `C35_uniform_counts`; PQ: `C35_uniform_requires`
* **C36** – CPQ: `C36_non_uniform`, `C36_non_uniform_periodic`, `C36_uniform_partial`, `C36_few_cells`, `C36_uniform_periodic`, `C36_requires`
* **C37** – CPQ: `C37_uniform`, `C37_uniform_greville_partial`, `C37_uniform_greville_fails`, `C37_non_uniform`, `C37_non_uniform_periodic_partial`, `C37_knots_uniform`, `C37_knots_uniform_list`, `C37_knots_non_uniform`, `C37_knots_count`, `C37_few_cells`; P: `C37_knots_requires`; PQ: `C37_kind`
* **C38** – CPQ: `C38_write`, `C38_write_outside`, `C38_read_outside`, `C38_history`, `C38_lapack`, `C38_fresh`; PQ: `C38_out_of_range`
* **C39** – CPQ: `C39_solves_partial`, `C39_setup_direct`, `C39_setup_blocks`, `C39_tiny_entries`, `C39_nearby`, `C39_coupling_exists`; PQ: `C39_required_rows`, `C39_wrong_rows`
* **C40** – CPQ: `C40_chunks`, `C40_solve`, `C40_converges`, `C40_chunk_size`; PQ: `C40_no_column`, `C40_wrong_rows`
* **C41** – CPQ: `C41_interpolates_partial`, `C41_offset`, `C41_offset_regular`, `C41_constructs`, `C41_constructs_dense`, `C41_negative_offset`, `C41_negative_offset_accepted`, `C41_negative_offset_front`, `C41_symmetric_storage`, `C41_few_cells`, `C41_approximates_partial`, `C41_coupling`, `C41_symmetric`, `C41_greville_partial`, `C41_builds_partial`, `C41_uniform_partial`, `C41_periodic_partial`, `C41_knots_even_degree`, `C41_well_posed`, `C41_open_partial`, `C41_general_partial`, `C41_nonUniform_partial`, `C41_periodic_well_posed_partial`, `C41_even_singular`, `C41_periodic_dominant`, `C41_periodic_general_partial`, `C41_nonUniform_periodic_partial`, `C41_nonUniform_odd_partial`, `C41_dropped`, `C41_negative_offset_greville`
* **C42** – CPQ: `C42_value`, `C42_periodic`, `C42_nd`, `C42_mesh`, `C42_mesh_deriv`, `C42_built_partial`, `C42_deriv_not_periodic`
* **C43** – CPQ: `C43_sum`, `C43_quadrature_partial`, `C43_uniform_widths`, `C43_homogeneous`, `C43_shift_ignored`
* **C44** – CPQ: `C44_wrap`, `C44_inside`, `C44_outside`, `C44_inside_1d`, `C44_periodic_1d`, `C44_outside_1d`, `C44_null`, `C44_constant_1d`, `C44_constant_2d`, `C44_constant_2d_periodic`; PQ: `C44_one`, `C44_two`, `C44_three`, `C44_constant`, `C44_constant_rule_2d`
* **C45** – CPQ: `C45_nd`, `C45_1d`, `C45_2d`, `C45_3d`; PQ: `C45_one`, `C45_two`, `C45_three`, `C45_bad_order`
* **C46** – CPQ: `C46_2d_partial`, `C46_3d_partial`, `C46_mixed_rejected`; PQ: `C46_1d_ignores`, `C46_2d_ignores`, `C46_3d_ignores_partial`, `C46_mixed_not_needed`, `C46_other_batch`, `C46_batch_rejected`
* **C47** – CPQ: `C47_wrong_count`, `C47_accepts`, `C47_rejects_partial`, `C47_constructor`, `C47_skipped_cells`, `C47_missed_end`, `C47_accepted_singular`
* **C48** – CPQ: `C48_mismatch`, `C48_batch_domain`, `C48_domain`, `C48_spline`, `C48_spline_tr`, `C48_passed_back_partial`, `C48_even`, `C48_even_upper`
* **C49** – CPQ: `C49_fft`, `C49_ifft`, `C49_rfft`, `C49_irfft`, `C49_inverse`, `C49_inverse_real`, `C49_mesh`, `C49_wave_numbers_partial`, `C49_space_overflow`, `C49_space_one_point`, `C49_full_one_point`
* **C50** – CPQ: `C50_file`, `C50_contiguous`, `C50_strided`, `C50_sparse`, `C50_no_throw`, `C50_throws`; none: `C50_dtype`
* **C51** – CPQ: `C51_elided`, `C51_heading`, `C51_all_shown`, `C51_contiguous`, `C51_strided`, `C51_sparse`; P: `C51_set`, `C51_race`; PQ: `C51_options`
* **C52** – CPQ: `C52_life`, `C52_once`, `C52_expose`, `C52_cstring_dangles`
* **C53** – CPQ: `C53_order`, `C53_ctor`, `C53_group`, `C53_coordinate`, `C53_coordinate_clash`, `C53_print`; P: `C53_scalar`, `C53_scalar_alias`, `C53_ctor_values`; PQ: `C53_add`, `C53_sub`, `C53_neg_smul`, `C53_assign`, `C53_assign_scalar_partial`, `C53_select`, `C53_eq`, `C53_eq_missing`
* **C54** – CPQ: `C54_band`, `C54_blocks`, `C54_periodic_partial`, `C54_periodic_small`; PQ: `C54_periodic_overflow`
* **C55** – CPQ: `C55_sum`, `C55_integrate_partial`
* **C56** – CPQ: `C56_get_type`, `C56_assign`, `C56_copy`, `C56_swap`, `C56_compare`, `C56_order`, `C56_nvcc`; P: `C56_get`, `C56_set`, `C56_eq_incomparable`, `C56_cat_moves_lvalues`; PQ: `C56_apply`, `C56_eq_needs_less`, `C56_cat`, `C56_rules`, `C56_category`
* **C57** – CPQ: `C57_sum`, `C57_sum_out_of_bounds`, `C57_dot`, `C57_ipow`, `C57_modulo_partial`, `C57_modulo_int`, `C57_modulo_large`; P: `C57_min_max`; PQ: `C57_ipow_min`, `C57_factorial_partial`, `C57_factorial_wraps`
* **C58** – CPQ: `C58_uniform_partial`, `C58_past_the_end`, `C58_periodic_partial`, `C58_far_aborts`, `C58_non_uniform`
* **C59** – CPQ: `C59_sorted`, `C59_non_uniform_partial`, `C59_aborts`, `C59_uniform_sorted`, `C59_uniform_partial`, `C59_uniform_past_the_end`, `C59_periodic_non_uniform_partial`, `C59_periodic_throws`, `C59_edges_partial`, `C59_edges_located_partial`, `C59_edges_past_the_end`, `C59_edges_abort`, `C59_selected`
* **C60** – CPQ: `C60_non_uniform`, `C60_below`, `C60_uniform_partial`, `C60_past_the_end`, `C60_periodic_non_uniform`, `C60_tiny_cell_throws`
* **C61** – CPQ: `C61_non_uniform`, `C61_uniform_partial`, `C61_past_the_end`, `C61_periodic_partial`, `C61_periodic_non_uniform_partial`
* **C62** – CPQ: `C62_uniform`, `C62_strict`, `C62_ghosted`, `C62_periodic_partial`, `C62_periodic_init`, `C62_periodic_ghosted`, `C62_last`, `C62_ghosted_first`, `C62_coincide`
* **C63** – CPQ: `C63_nd_partial`, `C63_2d_partial`, `C63_3d_partial`
* **C64** – CPQ: `C64_any_plan`, `C64_host`, `C64_any_scan`, `C64_sum_partial`, `C64_sum_host_partial`, `C64_prod_partial`, `C64_integers`, `C64_scan_partial`, `C64_schedules_differ`, `C64_two_runs_partial`, `C64_min_max`
* **C65** – CPQ: `C65_non_uniform`, `C65_periodic_non_uniform`, `C65_uniform_partial`, `C65_uniform_degree_one_partial`
* **C66** – CPQ: `C66_builder`, `C66_builder_2d`, `C66_builder_3d`, `C66_quadrature`, `C66_integrate`, `C66_sparse_domain`, `C66_mirror_and_copy`, `C66_setup_solver`, `C66_evaluator_returns_early`; PQ: `C66_one_instance`, `C66_evaluator`, `C66_integrals`, `C66_fft`, `C66_needs_waiting_free`, `C66_schur_needs_synchronous_host`
* **C67** – CPQ: `C67_non_uniform_partial`, `C67_periodic_non_uniform_partial`, `C67_uniform_partial`, `C67_spline_non_uniform_partial`, `C67_spline_periodic_non_uniform_partial`, `C67_spline_uniform_partial`
* **C68** – PQ: `C68_same_attributes_partial`, `C68_init`, `C68_buffers`; none: `C68_never_initialised`, `C68_after_guard`, `C68_stale_scalars`, `C68_copy_fails`, `C68_copy_of_knots_fails`
* **C69** – CPQ: `C69_non_uniform`, `C69_non_uniform_periodic`, `C69_uniform`, `C69_uniform_periodic`, `C69_integrate_non_uniform`, `C69_integrate_uniform`, `C69_not_exact`
* **C70** – CPQ: `C70_non_uniform`, `C70_greville_partial`, `C70_degree_one_aborts`, `C70_uniform_even_partial`, `C70_uniform_odd_partial`, `C70_cubic_partial`
* **C71** – CPQ: `C71_nd_partial`, `C71_2d_partial`, `C71_3d_partial`
* **C72** – CPQ: `C72_dispatch_nd`, `C72_dispatch_2d`, `C72_dispatch_3d`, `C72_nd_partial`, `C72_2d_partial`, `C72_3d_partial`, `C72_constant_1d`, `C72_constant_2d`, `C72_constant_2d_periodic`
* **C73** – CPQ: `C73_integrate_partial`
* **C74** – CPQ: `C74_residual`, `C74_bound_exists`, `C74_setup`, `C74_wrong_rows`, `C74_exact`
* **C75** – CPQ: `C75_non_uniform_partial`, `C75_constructs`, `C75_uniform_even_partial`, `C75_uniform_odd_partial`, `C75_cubic_partial`, `C75_cubic_stable_partial`
* **C76** – CPQ: `C76_stable`, `C76_uniform`, `C76_maximum`, `C76_conservation`
* **C77** – CPQ: `C77_uniform`, `C77_non_uniform`, `C77_maximum`, `C77_conservation_partial`, `C77_not_conserved`, `C77_not_periodic`
* **C78** – CPQ: `C78_generations`, `C78_any_board`, `C78_blinker`
* **C79** – CPQ: `C79_modes`, `C79_determined`, `C79_stable`, `C79_conservation`, `C79_energy`, `C79_time_partial`, `C79_overrun`
* **C80** – CPQ: `C80_advects`, `C80_too_many_steps`, `C80_too_negative`, `C80_time`, `C80_energy`, `C80_mass`, `C80_shift`
* **C81** – CPQ: `C81_history_partial`, `C81_destructor`, `C81_equal`; PQ: `C81_start`, `C81_power_of_two`, `C81_not_aligned`; none: `C81_released`, `C81_assignment`
* **C82** – CPQ: `C82_advects_partial`, `C82_reads_outside`, `C82_inside`, `C82_past_the_end`, `C82_time`, `C82_energy`, `C82_mass`, `C82_shift`, `C82_example`, `C82_returns`
* **C83** – CPQ: `C83_uniform`, `C83_conservation`, `C83_steps`, `C83_example`, `C83_overshoot`, `C83_step_count`
* **C84** – CPQ: `C84_uniform`, `C84_conservation`, `C84_non_uniform`, `C84_example`, `C84_unresolved`
* **C85** – CPQ: `C85_fft`, `C85_ifft`, `C85_rfft`, `C85_inverse`, `C85_irfft`, `C85_inverse_real`, `C85_wave_numbers_partial`, `C85_example`, `C85_unresolved`
* **C86** – CPQ: `C86_reference`, `C86_modes`, `C86_conservation`, `C86_example`, `C86_overrun`
* **C87** – CPQ: `C87_schedule`, `C87_heat`, `C87_distances`, `C87_non_uniform`, `C87_mean`, `C87_ends`, `C87_spectral`, `C87_spectral_mean`, `C87_spectral_time`, `C87_advection`, `C87_advection_mean`
* **C88** – CPQ: `C88_mean`, `C88_between`, `C88_nonneg`, `C88_empty`, `C88_above`, `C88_heat`, `C88_distances`, `C88_example`
<!-- axioms end -->
