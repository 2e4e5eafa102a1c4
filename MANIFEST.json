{
 "claims": [
  {
   "property": "C01",
   "status": "proved",
   "theorems": [
    "Rakau.C01_inverse"
   ],
   "note": "For every reachable state (all histories, all sort outcomes, all task orders). ROCm views not modelled."
  },
  {
   "property": "C02",
   "status": "proved",
   "theorems": [
    "Rakau.C02_views",
    "Rakau.C02_arguments"
   ],
   "note": ""
  },
  {
   "property": "C03",
   "status": "proved",
   "theorems": [
    "Rakau.C03_particles",
    "Rakau.C03_history"
   ],
   "note": "Callbacks are arbitrary read/write programs over the iterators they receive, ordered or unordered, particle or mass updates."
  },
  {
   "property": "C04",
   "status": "proved",
   "theorems": [
    "Rakau.C04_construct",
    "Rakau.C04_update",
    "Rakau.C04_masses"
   ],
   "note": ""
  },
  {
   "property": "C05",
   "status": "proved",
   "theorems": [
    "Rakau.C05_codes"
   ],
   "note": "The code function itself is covered by C06-C09."
  },
  {
   "property": "C06",
   "status": "proved",
   "theorems": [
    "Rakau.C06_encode",
    "Rakau.C06_decode",
    "Rakau.C06_injective"
   ],
   "note": "All four supported instantiations, tables transcribed literally and checked completely."
  },
  {
   "property": "C07",
   "status": "proved",
   "theorems": [
    "Rakau.C07_prefix_cell",
    "Rakau.C07_node_cube"
   ],
   "note": ""
  },
  {
   "property": "C08",
   "status": "proved",
   "theorems": [
    "Rakau.C08_range",
    "Rakau.C08_nonfinite",
    "Rakau.C08_monotone",
    "Rakau.C08_monotone_ieee",
    "Rakau.C08_interval",
    "Rakau.C08_clamp",
    "Rakau.C08_clamp_ieee",
    "Rakau.C08_clamp_monotone"
   ],
   "note": "any arithmetic for range and rejection; monotone for every monotone rounding, instantiated for all binary formats"
  },
  {
   "property": "C09",
   "status": "partial",
   "theorems": [
    "Rakau.C09_exact_partial",
    "Rakau.C09_ieee_partial",
    "Rakau.C09_below",
    "Rakau.C09_fused",
    "Rakau.C09_ieee_fails",
    "Rakau.C09_outside_fails"
   ],
   "note": "holds in exact arithmetic; in IEEE formats only up to a relative distance of about 3u from the ends; what is accepted is below b/2 exactly, and with fused multiply-add in the box exactly. The full claim is refuted: a double just below 1/2 is rejected in a box of size 1, and without fused multiply-add -(1.5 + 2^-52) is accepted in a box of size 3"
  },
  {
   "property": "C10",
   "status": "partial",
   "theorems": [
    "Rakau.C10_schedule",
    "Rakau.C10_nonfinite",
    "Rakau.C10_exact_partial",
    "Rakau.C10_ieee_partial",
    "Rakau.C10_origin_fails",
    "Rakau.C10_overflow_fails"
   ],
   "note": "holds unless all coordinates are zero or the largest one is extremely small or large; refuted in those cases"
  },
  {
   "property": "C11",
   "status": "proved",
   "theorems": [
    "Rakau.C11_depth_first",
    "Rakau.C11_children"
   ],
   "note": "Any schedule, any sort outcome; non-empty sorted code arrays with n*cbits < 2^64."
  },
  {
   "property": "C12",
   "status": "proved",
   "theorems": [
    "Rakau.C12_leaf_iff",
    "Rakau.C12_one_leaf"
   ],
   "note": ""
  },
  {
   "property": "C13",
   "status": "proved",
   "theorems": [
    "Rakau.C13_critical_nodes",
    "Rakau.C13_tiling"
   ],
   "note": ""
  },
  {
   "property": "C14",
   "status": "proved",
   "theorems": [
    "Rakau.C14_deterministic",
    "Rakau.C14_equals_serial"
   ],
   "note": "Schedules enter as arbitrary permutations of pushes and arbitrary sort outcomes."
  },
  {
   "property": "C15",
   "status": "proved",
   "theorems": [
    "Rakau.C15_input_order",
    "Rakau.C15_construct"
   ],
   "note": "C15_construct assumes the laws of EnvOk (codes bounded, deduced box independent of order), which are proved for the floating-point model."
  },
  {
   "property": "C16",
   "status": "proved",
   "theorems": [
    "Rakau.C16_tree_level",
    "Rakau.C16_node_compare",
    "Rakau.C16_codes_are_paths",
    "Rakau.C16_strict_total_order",
    "Rakau.C16_cbits_maximal"
   ],
   "note": "All dimensions and code widths up to 64 bits."
  },
  {
   "property": "C17",
   "status": "proved",
   "theorems": [
    "Rakau.C17_exact",
    "Rakau.C17_children"
   ],
   "note": "Exact arithmetic, any batch size and any SIMD backend whose hadd is the sum; zero mass gives the node centre."
  },
  {
   "property": "C18",
   "status": "proved",
   "theorems": [
    "Rakau.C18_com_inside"
   ],
   "note": "Exact arithmetic, non-negative masses."
  },
  {
   "property": "C19",
   "status": "proved",
   "theorems": [
    "Rakau.C19_cube",
    "Rakau.C19_subdivision",
    "Rakau.C19_disjoint",
    "Rakau.C19_particles",
    "Rakau.C19_size",
    "Rakau.C19_ieee",
    "Rakau.C19_ieee_spread",
    "Rakau.C19_ieee_centre"
   ],
   "note": "Cubes in exact arithmetic; the positions of the particles also in IEEE arithmetic, up to rounding errors (C19_ieee), also relative to the computed centre (C19_ieee_centre)."
  },
  {
   "property": "C20",
   "status": "proved",
   "theorems": [
    "Rakau.C20_sources",
    "Rakau.C20_each_once"
   ],
   "note": "Every non-target particle is covered by exactly one accepted node or opened leaf, for every acceptance function and every over-wide shift that does not increase its operand; C++ leaves those shifts undefined, see C35."
  },
  {
   "property": "C21",
   "status": "proved",
   "theorems": [
    "Rakau.C21_accepted",
    "Rakau.C21_exact",
    "Rakau.C21_ieee"
   ],
   "note": "C21_accepted: any arithmetic satisfying the rounding laws (so IEEE): an accepted node is apart from the target node and passes the computed criterion for every target particle. C21_exact: in exact arithmetic the criterion reads dim/theta < dist (bh), dim/theta + delta < dist (bh_geom). C21_ieee: what the computed criterion implies in real numbers, up to rounding errors, for positive masses and data in range."
  },
  {
   "property": "C22",
   "status": "proved",
   "theorems": [
    "Rakau.C22_direct_sum",
    "Rakau.C22_small_theta"
   ],
   "note": "Exact arithmetic with exact square roots at the distances that occur; any schedule, ordered or not, any of accs/pots/both; SIMD or not. C22_small_theta gives an explicit bound on theta for non-negative masses."
  },
  {
   "property": "C23",
   "status": "proved",
   "theorems": [
    "Rakau.C23_pairs",
    "Rakau.C23_room_needed"
   ],
   "note": "For any lane operations (any arithmetic), batch size and node size; the padding of batch-1 elements is also shown necessary."
  },
  {
   "property": "C24",
   "status": "partial",
   "theorems": [
    "Rakau.C24_acceptance",
    "Rakau.C24_values",
    "Rakau.C24_ieee_partial",
    "Rakau.C24_ieee_values_partial",
    "Rakau.C24_mixed_fails",
    "Rakau.C24_nan_fails"
   ],
   "note": "False as stated. Proved in exact arithmetic: no result contains a padding term (C24_values), and with non-negative masses padding never changes an acceptance (C24_acceptance); in IEEE arithmetic for positive masses and data in range, padding never changes an acceptance (C24_ieee_partial), and the results are bit by bit those of the operations without padding slots (C24_ieee_values_partial). Refuted by concrete IEEE runs: masses of both signs (C24_mixed_fails), and single precision with fast inverse square root and very small theta, where NaNs come from the padding (C24_nan_fails)."
  },
  {
   "property": "C25",
   "status": "proved",
   "theorems": [
    "Rakau.C25_node",
    "Rakau.C25_direct"
   ],
   "note": "Exact arithmetic; any batch size and padding for the node, any reachable tree for the direct sum."
  },
  {
   "property": "C26",
   "status": "proved",
   "theorems": [
    "Rakau.C26_scale"
   ],
   "note": "Any arithmetic with the rounding laws for the G == 1 shortcut; see the statement for the scaling of each output."
  },
  {
   "property": "C27",
   "status": "proved",
   "theorems": [
    "Rakau.C27_outputs"
   ],
   "note": "Any arithmetic."
  },
  {
   "property": "C28",
   "status": "proved",
   "theorems": [
    "Rakau.C28_check",
    "Rakau.C28_rejected",
    "Rakau.C28_accepted",
    "Rakau.C28_exact",
    "Rakau.C28_exact_functions",
    "Rakau.C28_arguments",
    "Rakau.C28_split",
    "Rakau.C28_split_rejected"
   ],
   "note": "Any arithmetic; in IEEE arithmetic values whose square underflows or overflows are rejected as well, as the code does."
  },
  {
   "property": "C29",
   "status": "partial",
   "theorems": [
    "Rakau.C29_partial",
    "Rakau.C29_rocm",
    "Rakau.C29_none",
    "Rakau.C29_double",
    "Rakau.C29_float",
    "Rakau.C29_rejects",
    "Rakau.C29_proportions",
    "Rakau.C29_fails_round",
    "Rakau.C29_fails_nan",
    "Rakau.C29_results"
   ],
   "note": "Proved in full without accelerators and with ROCm, and rejection of invalid splits in full. With CUDA the claim is false in general: for float and more than 2^24 particles the number of particles may round up (C29_fails_round: a device gets a particle that does not exist and another one a reversed range), and a split whose sum overflows leads to the undefined conversion of a NaN (C29_fails_nan). C29_partial proves it for CUDA when the sum of the split is finite and the number of particles does not round up (C29_double: up to 2^53 particles, C29_float: up to 2^24)."
  },
  {
   "property": "C30",
   "status": "proved",
   "theorems": [
    "Rakau.C30_once",
    "Rakau.C30_self",
    "Rakau.C30_values",
    "Rakau.C30_direct"
   ],
   "note": "Any group of threads, any device arithmetic for the traversal; the self term vanishes in every lawful arithmetic; values in exact arithmetic. ROCm and CUDA kernels are one model."
  },
  {
   "property": "C31",
   "status": "proved",
   "theorems": [
    "Rakau.C31_exact",
    "Rakau.C31_sound",
    "Rakau.C31_repaired"
   ],
   "note": "Completeness in exact arithmetic for trees with leaves above the deepest level and AABB sizes zero or at least one cell; soundness in any arithmetic. C31_repaired: without these conditions if the over-wide shift gave zero."
  },
  {
   "property": "C32",
   "status": "proved",
   "theorems": [
    "Rakau.C32_structure"
   ],
   "note": "Any arithmetic, any schedule, any meaning of over-wide shifts."
  },
  {
   "property": "C33",
   "status": "proved",
   "theorems": [
    "Rakau.C33_schedule",
    "Rakau.C33_unique",
    "Rakau.C33_total"
   ],
   "note": "Also independent of the previous content of the output."
  },
  {
   "property": "C34",
   "status": "partial",
   "theorems": [
    "Rakau.C34_iff",
    "Rakau.C34_fails_leaf",
    "Rakau.C34_fails_size",
    "Rakau.C34_masked_misses",
    "Rakau.C34_partial",
    "Rakau.C34_repaired",
    "Rakau.C34_invalid_size"
   ],
   "note": "False at the deepest level (tree_coll.hpp:172): proved with witnesses, including a collision that is missed with x86 shifts. C34_partial: no undefined behaviour if leaves and AABB levels are above the deepest level."
  },
  {
   "property": "C35",
   "status": "partial",
   "theorems": [
    "Rakau.C35_partial",
    "Rakau.C35_undefined",
    "Rakau.C35_defined_iff",
    "Rakau.C35_fails"
   ],
   "note": "The property is false: sources deeper than the target give a shift amount at least the width. Proved: the amount is in range for sources not deeper, out of range for all others, and the traversal is defined exactly if no deeper node is visited; concrete undefined run."
  },
  {
   "property": "C36",
   "status": "proved",
   "theorems": [
    "Rakau.C36_copy",
    "Rakau.C36_move",
    "Rakau.C36_copy_assign",
    "Rakau.C36_move_assign",
    "Rakau.C36_empty"
   ],
   "note": "Independence of copies is by value semantics of the model: members are owning containers (tree.hpp:3839-3884)."
  },
  {
   "property": "C37",
   "status": "proved",
   "theorems": [
    "Rakau.C37_particles",
    "Rakau.C37_masses",
    "Rakau.C37_total",
    "Rakau.C37_construct_total"
   ],
   "note": ""
  },
  {
   "property": "C38",
   "status": "proved",
   "theorems": [
    "Rakau.C38_masses",
    "Rakau.C39_rebuild"
   ],
   "note": ""
  },
  {
   "property": "C39",
   "status": "proved",
   "theorems": [
    "Rakau.C39_rebuild",
    "Rakau.C39_identical",
    "Rakau.C39_environment"
   ],
   "note": "Node properties are recomputed with the same function; with equal codes the order of summation may differ, with distinct codes the rebuilt tree is identical. C39_environment shows the concrete code, box and node-property functions satisfy the laws assumed of the environment."
  },
  {
   "property": "C40",
   "status": "proved",
   "theorems": [
    "Rakau.C40_ordered",
    "Rakau.C40_each_once",
    "Rakau.C40_value"
   ],
   "note": "C40_ordered and C40_each_once in any arithmetic, C40_value (sum of the pulls) in exact arithmetic."
  },
  {
   "property": "C41",
   "status": "proved",
   "theorems": [
    "Rakau.C41_outcome",
    "Rakau.C41_invalid",
    "Rakau.C41_reasons",
    "Rakau.C41_exact"
   ],
   "note": "Any arithmetic: only success or invalid_argument, each invalid parameter throws, every throw has one of the listed reasons. Exact arithmetic: the accepted inputs are characterised exactly. A double box size given to a float tree goes through numeric_cast, which is not modelled."
  },
  {
   "property": "C42",
   "status": "partial",
   "theorems": [
    "Rakau.C42_unchanged_partial",
    "Rakau.C42_fails"
   ],
   "note": "False as stated: an lvalue masses vector is moved from when all coordinates are rvalue vectors (C42_fails). Holds in every other case (C42_unchanged_partial)."
  },
  {
   "property": "C43",
   "status": "proved",
   "theorems": [
    "Rakau.C43_checked_uinc",
    "Rakau.C43_sequence",
    "Rakau.C43_atomic",
    "Rakau.C43_atomic_count",
    "Rakau.C43_it_diff_check"
   ],
   "note": "The atomic variant counts one throw per crossing of the maximum."
  },
  {
   "property": "C44",
   "status": "proved",
   "theorems": [
    "Rakau.C44_no_overflow",
    "Rakau.C44_outcome_exists"
   ],
   "note": ""
  },
  {
   "property": "C45",
   "status": "proved",
   "theorems": [
    "Rakau.C45_bytes",
    "Rakau.C45_alignment"
   ],
   "note": "The default (aligned_alloc) variant; the macOS posix_memalign variant is not modelled."
  },
  {
   "property": "C46",
   "status": "proved",
   "theorems": [
    "Rakau.C46_newton",
    "Rakau.C46_accuracy",
    "Rakau.C46_rounded",
    "Rakau.C46_float"
   ],
   "note": "Exact arithmetic and IEEE arithmetic with all roundings; the hardware estimate is any value within the documented relative error."
  },
  {
   "property": "C47",
   "status": "proved",
   "theorems": [
    "Rakau.C47_pprint",
    "Rakau.C47_stream",
    "Rakau.C47_digits"
   ],
   "note": "Lines as structured data; ostream number formatting is not modelled."
  },
  {
   "property": "C48",
   "status": "proved",
   "theorems": [
    "Rakau.C48_outputs",
    "Rakau.C48_tiling",
    "Rakau.C48_overflow",
    "Rakau.C29_results"
   ],
   "note": "Any number of accelerators, any sorted cuts, any arrival order, both origins of the output; indices that do not fit an int throw. C29_results: CPU and accelerators together."
  },
  {
   "property": "C49",
   "status": "proved",
   "theorems": [
    "Rakau.C49_clz_paths"
   ],
   "note": "All four implementation paths; the hardware intrinsics themselves are modelled by their documented contract."
  },
  {
   "property": "C50",
   "status": "partial",
   "theorems": [
    "Rakau.C50_detected_partial",
    "Rakau.C50_uniform_partial",
    "Rakau.C50_fails"
   ],
   "note": "False as stated: the same keyword with different value types or categories is not detected (C50_fails). Detected for the same type."
  },
  {
   "property": "C51",
   "status": "proved",
   "theorems": [
    "Rakau.C51_node",
    "Rakau.C51_total",
    "Rakau.C51_gpu",
    "Rakau.C51_real"
   ],
   "note": "Bound kappa^2/(1-kappa) relative to the computed potential, with kappa^2 >= d*theta^2, kappa < 1, exact arithmetic, exact roots (C51_real: over the reals, no root assumption)."
  },
  {
   "property": "C52",
   "status": "proved",
   "theorems": [
    "Rakau.C52_traversal"
   ],
   "note": "Traversal part of the CPU path, over-wide shifts not undefined (see C35)."
  },
  {
   "property": "C53",
   "status": "proved",
   "theorems": [
    "Rakau.C53_writes",
    "Rakau.C27_outputs"
   ],
   "note": "Any order of processing of the critical nodes."
  },
  {
   "property": "C54",
   "status": "proved",
   "theorems": [
    "Rakau.C54_finite",
    "Rakau.C54_data"
   ],
   "note": "Any arithmetic; HaddNonfin (horizontal sums of non-finite values are not finite) is the only assumption on the SIMD instruction set; number of particles times cbits below 2^64."
  },
  {
   "property": "C55",
   "status": "proved",
   "theorems": [
    "Rakau.C55_node",
    "Rakau.C51_total",
    "Rakau.C51_gpu",
    "Rakau.C51_real"
   ],
   "note": "Acceleration part of WithinError: accErr kappa * (1+kappa)^2 * |G| * sum of m_l/D2."
  },
  {
   "property": "C56",
   "status": "proved",
   "theorems": [
    "Rakau.C56_box"
   ],
   "note": "Any arithmetic with the rounding laws, any reachable state."
  },
  {
   "property": "C57",
   "status": "proved",
   "theorems": [
    "Rakau.C57_exact",
    "Rakau.C57_user",
    "Rakau.C57_end_to_end"
   ],
   "note": "Over the real numbers with exact square root; n > 0, kappa^2 >= d*theta^2, kappa < 1, no two particles at softened distance zero."
  },
  {
   "property": "C58",
   "status": "proved",
   "theorems": [
    "Rakau.C58_order",
    "Rakau.C58_construct"
   ],
   "note": "Exact arithmetic, non-negative masses, positive softened distances; both acceptance criteria, with or without vectorisation and reciprocal square root estimates."
  },
  {
   "property": "C59",
   "status": "proved",
   "theorems": [
    "Rakau.C59_scale",
    "Rakau.C59_construct"
   ],
   "note": "Over the reals; box given or deduced; both acceptance criteria; permuted input and different vector widths allowed in the two runs."
  },
  {
   "property": "C60",
   "status": "partial",
   "theorems": [
    "Rakau.C60_batches_partial",
    "Rakau.C60_exact_partial",
    "Rakau.C60_ieee_partial",
    "Rakau.C60_mixed_fails"
   ],
   "note": "False in general: with masses of both signs and padding a smaller angle can be coarser (C60_mixed_fails, IEEE double). Proved for critical nodes that fill whole batches (always so without vector kernels) in any rounding arithmetic; for every vector width in exact arithmetic with non-negative masses, and in IEEE arithmetic with positive masses and data in range (C60_ieee_partial)."
  },
  {
   "property": "C61",
   "status": "proved",
   "theorems": [
    "Rakau.C61_exact",
    "Rakau.C61_tree",
    "Rakau.span64",
    "Rakau.span32"
   ],
   "note": "Data in range: softened distances and masses between 1/b and b (b = 2^200 in double, 2^25 in single precision). If estimates of inverse square roots are used, their relative error is a hypothesis (EstimateOk); the Newton step is analysed. The bound of C61_tree is relative to the stored node data."
  },
  {
   "property": "C62",
   "status": "proved",
   "theorems": [
    "Rakau.C62_accepted",
    "Rakau.C62_outcome"
   ],
   "note": "Full characterisation of the keyword constructor at compile time and of its outcome before the tree is built."
  },
  {
   "property": "C63",
   "status": "proved",
   "theorems": [
    "Rakau.C63_exact",
    "Rakau.C63_tree"
   ],
   "note": "Any arithmetic with rnd 0 = 0 and sqrt 0 = 0; the estimate of the inverse square root of zero must not be finite (hardware returns infinity)."
  },
  {
   "property": "C64",
   "status": "proved",
   "theorems": [
    "Rakau.C64_node",
    "Rakau.C64_inside"
   ],
   "note": "IEEE formats with at least the standard precision; masses zero or in [1/b, b], coordinates at most b, with b in the range of the format; any order of additions in the horizontal sum."
  },
  {
   "property": "C65",
   "status": "proved",
   "theorems": [
    "Rakau.C65_tree"
   ],
   "note": "Data in range (TreeIn): masses >= 2/b, total mass <= b/2, distances between 1/b and b, the smallest cell above 4/b; kappa < 1 limits theta to below 1/sqrt(d). If estimates of inverse square roots are used, their relative error is a hypothesis (EstimateOk). GPU results are not covered."
  },
  {
   "property": "C66",
   "status": "proved",
   "theorems": [
    "Rakau.C66_accs",
    "Rakau.C66_pots",
    "Rakau.C66_pots_exact",
    "Rakau.C66_devices",
    "Rakau.C66_exact",
    "Rakau.C66_vector_fails"
   ],
   "note": "Accelerations for any arithmetic, state and parameters; potentials for scalar kernels, accelerators and the exact functions, and for vector kernels in exact arithmetic. C66_vector_fails shows that vector potentials may differ in the last bit in IEEE arithmetic. The schedule is the same in both calls; by C53 it does not matter."
  },
  {
   "property": "C67",
   "status": "proved",
   "theorems": [
    "Rakau.C67_shape",
    "Rakau.C67_iterators",
    "Rakau.C67_vectors",
    "Rakau.C67_vectors_throw",
    "Rakau.C67_narrow",
    "Rakau.C67_ilist"
   ],
   "note": "CPU path; outputs as one column per component, for iterators of any difference type, vectors and initializer lists."
  },
  {
   "property": "C68",
   "status": "proved",
   "theorems": [
    "Rakau.C68_kernel",
    "Rakau.C68_newton",
    "Rakau.C68_split"
   ],
   "note": "Rounding and approximation errors of the accelerator kernels and of the distributed computation; hypotheses as for C65, and masses that are values of the format."
  },
  {
   "property": "C69",
   "status": "proved",
   "theorems": [
    "Rakau.C69_state",
    "Rakau.C69_construct",
    "Rakau.C69_unordered",
    "Rakau.C69_ordered",
    "Rakau.C69_devices",
    "Rakau.C69_exact",
    "Rakau.C69_graph_unordered",
    "Rakau.C69_graph",
    "Rakau.C69_ties_fail"
   ],
   "note": "For any arithmetic. Two trees over the same particles (renumbered by any permutation) with distinct codes; the witness C69_ties_fail shows that distinct codes are needed."
  },
  {
   "property": "C70",
   "status": "partial",
   "theorems": [
    "Rakau.C70_bound",
    "Rakau.C70_assert",
    "Rakau.C70_terminate",
    "Rakau.C70_too_large",
    "Rakau.C70_read_partial",
    "Rakau.C70_results_partial",
    "Rakau.C70_computed",
    "Rakau.C70_stale_fails"
   ],
   "note": "False in general: update_masses does not renew the views, so that an accelerator with memory of its own goes on with the old masses (C70_stale_fails). Proved: views are always bound to the current buffers, are never created twice, and show the current data if masses are not updated after a computation on the accelerator or if it shares the host memory."
  },
  {
   "property": "C71",
   "status": "proved",
   "theorems": [
    "Rakau.C71_unique",
    "Rakau.C71_encode",
    "Rakau.C71_iota",
    "Rakau.C71_input",
    "Rakau.C71_construct",
    "Rakau.C71_sync",
    "Rakau.C71_props",
    "Rakau.C71_merge",
    "Rakau.C71_forces"
   ],
   "note": "Interleavings of single reads and writes; the regions and what is not modelled as interleavings (parallel_sort, parallel_reduce, concurrent containers, the root's properties beside the builder) are listed in DESIGN.md"
  },
  {
   "property": "C72",
   "status": "partial",
   "theorems": [
    "Rakau.C72_construct",
    "Rakau.C72_update",
    "Rakau.C72_masses",
    "Rakau.C72_cgraph",
    "Rakau.C72_split_rocm",
    "Rakau.C72_split_cuda",
    "Rakau.C72_split_partial",
    "Rakau.C72_split_fails",
    "Rakau.C72_dtor_partial",
    "Rakau.C72_dtor_iff",
    "Rakau.C72_dtor_exact",
    "Rakau.C72_dtor_fused",
    "Rakau.C72_dtor_deduced",
    "Rakau.C72_dtor_upper",
    "Rakau.C72_dtor_fails"
   ],
   "note": "proved for all assertions except two, for which the claim is false: the lower bound of the coordinates in the destructor (C72_dtor_fails; it holds for deduced boxes and with fused multiply-add) and the order of the split indices with CUDA (C72_split_fails); the partial theorems say exactly when they fail"
  },
  {
   "property": "C73",
   "status": "partial",
   "theorems": [
    "Rakau.C73_fits",
    "Rakau.C73_cleanup",
    "Rakau.C73_outcome_partial",
    "Rakau.C73_results",
    "Rakau.C73_streams",
    "Rakau.C73_bounds_partial",
    "Rakau.C73_bounds_fails",
    "Rakau.C73_terminate_partial",
    "Rakau.C73_silent_fails",
    "Rakau.C73_terminate_fails"
   ],
   "note": "False in general: failed launches and errors reported by cudaStreamSynchronize go unnoticed (C73_silent_fails), a device that fails during clean-up ends the program (C73_terminate_fails), and more memory is registered than exists for temporary result arrays (C73_bounds_fails). Proved: legality and clean-up for all results of all calls, the outcome for all other failures, results if nothing fails, no conflicts of streams, bounds of all reads and writes."
  },
  {
   "property": "C74",
   "status": "partial",
   "theorems": [
    "Rakau.C74_nearest",
    "Rakau.C74_outcome",
    "Rakau.C74_widening",
    "Rakau.C74_monotone",
    "Rakau.C74_size",
    "Rakau.C74_integer_partial",
    "Rakau.C74_ctor",
    "Rakau.C74_throws",
    "Rakau.C74_accpot",
    "Rakau.C74_truncated_fails",
    "Rakau.C74_nan_fails",
    "Rakau.C74_compiles"
   ],
   "note": "Floating-point parameters: full claim. Integer parameters given as floating-point numbers: integers arrive unchanged or the call throws, other numbers are truncated (false in general, counterexample proved), NaN is undefined behaviour (proved for all calls)."
  },
  {
   "property": "C75",
   "status": "partial",
   "theorems": [
    "Rakau.C75_first_bit_partial",
    "Rakau.C75_first_bit_fails",
    "Rakau.C75_encode_partial",
    "Rakau.C75_encode_ET_fails",
    "Rakau.C75_magic_fails",
    "Rakau.C75_decode_partial",
    "Rakau.C75_loop_fails",
    "Rakau.C75_loopET_fails",
    "Rakau.C75_decode_narrow_fails",
    "Rakau.C75_same_code",
    "Rakau.C75_roundtrip",
    "Rakau.C75_tables",
    "Rakau.C75_tables_fails"
   ],
   "note": "False in general; the failing cases are characterised by the _fails theorems, everything else is proved."
  },
  {
   "property": "C76",
   "status": "proved",
   "theorems": [
    "Rakau.C76_call",
    "Rakau.C76_history",
    "Rakau.C76_memory",
    "Rakau.C76_schedules"
   ],
   "note": "for trees whose particle numbers fit the machine (size hypotheses as in C27); assumes that a thread does not start a critical node within another"
  },
  {
   "property": "C77",
   "status": "proved",
   "theorems": [
    "Rakau.C77_construct",
    "Rakau.C77_outcome",
    "Rakau.C77_exact",
    "Rakau.C77_masses"
   ],
   "note": "Outcomes of updates of particles and masses in terms of the constructor; acceptance criteria in exact arithmetic. In rounded arithmetic acceptance is that of the constructor (C41_reasons)."
  },
  {
   "property": "C78",
   "status": "partial",
   "theorems": [
    "Rakau.C78_defined",
    "Rakau.C78_motion",
    "Rakau.C78_newton",
    "Rakau.C78_momentum",
    "Rakau.C78_angular",
    "Rakau.C78_reversible",
    "Rakau.C78_forever",
    "Rakau.C78_run",
    "Rakau.C78_energy_partial",
    "Rakau.C78_energy_fails"
   ],
   "note": "All statements proved except that the printed total energy is the total energy, which is refuted: the program adds each pair twice (C78_energy_fails, exact value in C78_energy_partial)."
  },
  {
   "property": "C79",
   "status": "proved",
   "theorems": [
    "Rakau.C79_no_race",
    "Rakau.C79_conflict",
    "Rakau.C79_no_error",
    "Rakau.C79_ends",
    "Rakau.C79_result",
    "Rakau.C79_serial",
    "Rakau.C79_exists"
   ],
   "note": "Interleavings of single operations of the tasks; serial subtrees are one read and one write of the task's own elements, see DESIGN.md"
  },
  {
   "property": "C80",
   "status": "partial",
   "theorems": [
    "Rakau.C80_partial",
    "Rakau.C80_fails"
   ],
   "note": "False in general: C80_fails gives a tree of doubles (box 1, with or without FMA) with a particle inside the AABB of another one that is not found, because the size of the AABB is the largest number below b/4. C80_partial: for sizes that are zero or between the cell size and the box size and not within 16 u b below a size of cells, every execution returns a graph with all exact overlaps and with edges only between AABBs at most 3 u b apart, for every binary format and both kinds of multiply-add. Missing: the sizes just below a size of cells, where it is false."
  },
  {
   "property": "C81",
   "status": "proved",
   "theorems": [
    "Rakau.C81_exact",
    "Rakau.C81_ieee",
    "Rakau.C81_edges",
    "Rakau.C81_zero"
   ],
   "note": "In IEEE arithmetic under the condition of C80_partial on the size; n(n-1) < 2^64 so that the sum does not wrap."
  },
  {
   "property": "C82",
   "status": "proved",
   "theorems": [
    "Rakau.C82_total",
    "Rakau.C82_motion",
    "Rakau.C82_drift",
    "Rakau.C82_ieee",
    "Rakau.C82_fails"
   ],
   "note": "C82_fails: exact cancellation, which is not claimed, does not hold. C82_ieee: floating-point numbers, for positive masses and data in range."
  },
  {
   "property": "C83",
   "status": "proved",
   "theorems": [
    "Rakau.C83_defined",
    "Rakau.C83_move",
    "Rakau.C83_fails"
   ],
   "note": "C83_defined: any arithmetic; C83_move: real arithmetic, all four printed lines; C83_fails: concrete run in exact arithmetic whose two tree lines differ"
  },
  {
   "property": "C84",
   "status": "proved",
   "theorems": [
    "Rakau.C84_tree",
    "Rakau.C84_axes",
    "Rakau.C84_construct",
    "Rakau.C84_widths",
    "Rakau.C84_fails"
   ],
   "note": "Exact equality in real arithmetic (any exact arithmetic over a linearly ordered field for C84_axes and C84_construct). The condition that no particle lies on a face of the grid of cells along a reversed axis is part of the property; C84_fails shows it cannot be dropped."
  },
  {
   "property": "C85",
   "status": "proved",
   "theorems": [
    "Rakau.C85_defined",
    "Rakau.C85_ordered",
    "Rakau.C85_value"
   ],
   "note": "C85_defined and C85_ordered hold in any arithmetic; C85_value in real arithmetic."
  },
  {
   "property": "C86",
   "status": "partial",
   "theorems": [
    "Rakau.C86_data_partial",
    "Rakau.C86_accept",
    "Rakau.C86_exists",
    "Rakau.C86_fails_wrap",
    "Rakau.C86_fails_size"
   ],
   "note": "false for 2^62 particles (size of the vector wraps around) and for sizes whose limit is rounded to zero (never returns), both proved; proved below 2^62 particles for every outcome. Mathematical functions are arbitrary with sine and cosine in [-1,1] or NaN; probability distributions are sets of values; allocation failure not modelled"
  },
  {
   "property": "C87",
   "status": "partial",
   "theorems": [
    "Rakau.C87_partial",
    "Rakau.C87_fails"
   ],
   "note": "false for ranges that end before the last particle and are not a multiple of a wavefront long (proved: C87_fails); proved for all other ranges, which include those of the only call"
  },
  {
   "property": "C88",
   "status": "partial",
   "theorems": [
    "Rakau.C88_data",
    "Rakau.C88_accept_partial",
    "Rakau.C88_inner",
    "Rakau.C88_exact",
    "Rakau.C88_fails_fused",
    "Rakau.C88_fails_plain",
    "Rakau.C88_fails_wrap"
   ],
   "note": "Contents, places and the box for all random numbers and all sizes that are not tiny, in any binary format; acceptance by the constructor for powers of two, for all sizes with random numbers that are not within three units of roundoff of 0 or 1, and for all sizes without rounding. Acceptance for all sizes and random numbers in IEEE arithmetic is false, witnesses for both settings of fused multiply-add; the wrap of the size of the vector is undefined."
  },
  {
   "property": "C89",
   "status": "proved",
   "theorems": [
    "Rakau.C89_defined",
    "Rakau.C89_parameters",
    "Rakau.C89_empty"
   ],
   "note": "Definedness of the exact functions for every index and every reachable state."
  }
 ]
}
