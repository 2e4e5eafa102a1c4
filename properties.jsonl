{"id": "C01", "title": "perm() and inv_perm() are mutually inverse permutations", "statement": "At every point of a tree's life, perm() is a permutation of 0..n-1 (n = number of particles) and inv_perm() is its inverse: inv_perm()[perm()[i]] == i and perm()[inv_perm()[i]] == i for every i < n.", "quantifier": "every particle set, every history of construction, update_particles_u/o, update_masses_u/o, copies, moves and clears, every outcome of the unstable parallel sort", "why_tests_cant": "histories, particle sets and sort outcomes are unbounded", "anchors": ["include/rakau/tree.hpp: perm_to_inv_perm, construct_impl, sync, perm(), inv_perm()"]}
{"id": "C02", "title": "Ordered view returns the input data; unordered view is the permuted input", "statement": "After construction from coordinate and mass ranges, the ordered view (p_its_o) yields exactly the input values in input order, and element i of the unordered view (p_its_u) is input element perm()[i]. No particle is lost, duplicated or mixed across components.", "quantifier": "every input particle set that construction accepts, every sort outcome", "why_tests_cant": "needs all sizes and all tie patterns of the unstable sort", "anchors": ["include/rakau/tree.hpp: construct_impl, apply_isort, ord_p_its_impl, unord_p_its_impl"]}
{"id": "C03", "title": "Particle identity is stable over any update history", "statement": "Ordered index k designates the same particle forever: after any sequence of particle and mass updates, the ordered view equals what the same sequence of edits applied to a plain array in user order would give.", "quantifier": "every finite sequence of successful update_particles_u, update_particles_o, update_masses_u, update_masses_o calls with arbitrary user callbacks", "why_tests_cant": "an induction over unbounded histories", "anchors": ["include/rakau/tree.hpp: sync, update_particles_dispatch, update_masses_dispatch, update_particles_o, update_masses_o"]}
{"id": "C04", "title": "last_perm() describes exactly the reordering of the last update", "statement": "After construction last_perm() == perm(). After an update_particles call, new_perm[i] == old_perm[last_perm()[i]], and unordered element i of the new tree is the (edited) unordered element last_perm()[i] of the old one.", "quantifier": "every state and every update", "why_tests_cant": "unbounded states and sort outcomes", "anchors": ["include/rakau/tree.hpp: sync, last_perm()"]}
{"id": "C05", "title": "Particle codes are sorted and match positions", "statement": "At every point of a tree's life the particles of the unordered view are sorted by Morton code, and the code of each particle is the Morton code of the discretised current position in the current box.", "quantifier": "every history, every sort outcome", "why_tests_cant": "unbounded histories", "anchors": ["include/rakau/tree.hpp: construct_impl, sync, ~tree (debug checks)"]}
{"id": "C06", "title": "Morton encoding is exact bit interleaving and decoding inverts it", "statement": "For each supported (dimension, code width) pair, the table-driven encoder returns the number whose bit NDim*i+j is bit i of coordinate j, for every in-range coordinate tuple, and the table-driven decoder returns the original coordinates. Hence distinct cells have distinct codes, and codes fit in cbits*NDim bits.", "quantifier": "all coordinate tuples below 2^cbits for (3,64), (3,32), (2,64), (2,32)", "why_tests_cant": "2^63 inputs cannot be enumerated", "anchors": ["include/rakau/tree.hpp: morton_encoder, morton_decoder", "include/rakau/detail/libmorton/morton3D.h: m3D_e_sLUT, m3D_d_sLUT", "include/rakau/detail/libmorton/morton2D.h: m2D_e_sLUT, m2D_d_sLUT", "include/rakau/detail/libmorton/morton3D_LUTs.h", "include/rakau/detail/libmorton/morton2D_LUTs.h"]}
{"id": "C07", "title": "Sharing a code prefix means sharing a spatial cell", "statement": "Two particles lie in the same node at level L exactly when, in every dimension, their discretised coordinates agree after dropping the lowest cbits-L bits. Equivalently a node's particles are exactly those whose cell lies in an axis-aligned cube of side 2^(cbits-L) cells.", "quantifier": "all coordinates, all levels", "why_tests_cant": "unbounded inputs", "anchors": ["include/rakau/tree.hpp: build_tree_ser_impl (node_prefix, code_shifter), get_node_centre"]}
{"id": "C08", "title": "Discretisation never produces an out-of-range cell and is monotone", "statement": "Discretising a coordinate either throws invalid_argument or yields a cell index below 2^cbits; the float-to-integer conversion is always in range (no UB); NaN and infinities are always rejected; and under IEEE rounding a larger coordinate never gets a smaller cell index.", "quantifier": "every floating-point value (incl. NaN, infinities) and box size, every rounding-to-nearest format, with or without FMA", "why_tests_cant": "2^64 x 2^64 inputs", "anchors": ["include/rakau/tree.hpp: disc_single_coord, fma_wrap"]}
{"id": "C09", "title": "Exactly the particles inside the box are accepted", "statement": "A particle is accepted by construction/update exactly when every coordinate lies in [-box_size/2, box_size/2).", "quantifier": "all coordinates and box sizes", "why_tests_cant": "boundary values of every box size", "anchors": ["include/rakau/tree.hpp: disc_single_coord, disc_coords"]}
{"id": "C10", "title": "A deduced box contains every particle", "statement": "When no box size is given, the deduced box is 2*1.05 times the largest absolute coordinate, so every finite particle set is accepted.", "quantifier": "all finite particle sets", "why_tests_cant": "all particle sets, all reduction trees", "anchors": ["include/rakau/tree.hpp: determine_box_size, construct_impl, sync"]}
{"id": "C11", "title": "The node list is a well-formed depth-first tree", "statement": "nodes() is the depth-first preorder of a tree: the root covers [0,n); each node's n_children is the exact number of its descendants, stored right after it; the direct children of an internal node are non-empty, are ordered by code, have code parent*2^NDim+i and level parent+1, and partition its particle range.", "quantifier": "every particle set, max_leaf_n, ncrit", "why_tests_cant": "all particle distributions", "anchors": ["include/rakau/tree.hpp: build_tree_ser_impl, build_tree_par_impl, build_tree"]}
{"id": "C12", "title": "Leaves are exactly the small or deepest nodes", "statement": "A node is a leaf exactly when it has at most max_leaf_n particles or sits at the deepest level cbits; in particular every leaf above the deepest level has at most max_leaf_n particles and every particle is in exactly one leaf.", "quantifier": "every particle set and max_leaf_n", "why_tests_cant": "all distributions, including coincident particles", "anchors": ["include/rakau/tree.hpp: build_tree_ser_impl, build_tree"]}
{"id": "C13", "title": "Critical nodes partition the particles", "statement": "The critical nodes, in order, are non-empty contiguous ranges covering [0,n) exactly once; each is a node of the tree; none is an ancestor of another; each has at most max(ncrit, max_leaf_n) particles unless at the deepest level; and each is the topmost such node on its path.", "quantifier": "every particle set, max_leaf_n, ncrit", "why_tests_cant": "all distributions and parameters", "anchors": ["include/rakau/tree.hpp: build_tree, build_tree_ser_impl, build_tree_par_impl (critical_node)"]}
{"id": "C14", "title": "Parallel build is deterministic", "statement": "For a given sorted code array the node list and the critical node list do not depend on task scheduling, on push order into the concurrent containers, on how ties in the final sorts are broken, or on the parallel/serial cut-off.", "quantifier": "all interleavings, all cut-offs, all particle sets", "why_tests_cant": "schedules cannot be enumerated", "anchors": ["include/rakau/tree.hpp: build_tree_par_impl, build_tree"]}
{"id": "C15", "title": "Tree shape does not depend on input order", "statement": "Permuting the input particles does not change the node list's structure (begin, end, n_children, code, level) nor the critical nodes nor the sorted codes.", "quantifier": "all permutations of all inputs", "why_tests_cant": "n! permutations", "anchors": ["include/rakau/tree.hpp: construct_impl, build_tree"]}
{"id": "C16", "title": "Nodal code order is depth-first order", "statement": "node_compare is a strict total order on valid nodal codes and coincides with preorder (lexicographic order of child-index paths, ancestors first); tree_level returns the depth of the node.", "quantifier": "all pairs of nodal codes, all supported widths and dimensions", "why_tests_cant": "2^128 pairs", "anchors": ["include/rakau/tree.hpp: node_compare", "include/rakau/detail/tree_fwd.hpp: tree_level, clz"]}
{"id": "C17", "title": "Node mass and centre of mass are exact sums (exact arithmetic)", "statement": "In exact arithmetic each node's mass is the sum of its particles' masses and, if non-zero, its COM is the mass-weighted mean, for any SIMD batch size; the mass of an internal node is the sum of its children's masses. If the mass is zero the COM is the geometric centre.", "quantifier": "all particle sets, batch sizes", "why_tests_cant": "all sizes vs batch remainders", "anchors": ["include/rakau/tree.hpp: compute_node_properties"]}
{"id": "C18", "title": "The centre of mass lies inside its node (non-negative masses)", "statement": "If masses are non-negative, every node's COM lies in the bounding box of the node's particles, hence within the node's cube.", "quantifier": "all particle sets with non-negative masses", "why_tests_cant": "unbounded", "anchors": ["include/rakau/tree.hpp: compute_node_properties, get_node_centre"]}
{"id": "C19", "title": "Node cubes contain their particles", "statement": "In exact arithmetic every particle of a node satisfies |x_j - c_j| <= dim/2 in each dimension, c the geometric centre and dim = box_size/2^level the node dimension; nodes at the same level have disjoint interiors.", "quantifier": "all nodes and particles", "why_tests_cant": "unbounded", "anchors": ["include/rakau/tree.hpp: get_node_centre, get_node_dim, disc_single_coord"]}
{"id": "C20", "title": "Each force evaluation counts every other particle exactly once", "statement": "For every target particle, the sources used by accs/pots/accs_pots (accepted nodes, particles of opened leaves, and particles of the target's own critical node) partition the set of all other particles: nothing is missed, nothing is counted twice, the particle itself is never counted.", "quantifier": "every tree, critical node, opening angle, and every outcome of the acceptance test", "why_tests_cant": "all trees x all acceptance patterns", "anchors": ["include/rakau/tree.hpp: tree_acc_pot, tree_acc_pot_mac_check, tree_self_interactions"]}
{"id": "C21", "title": "Approximated nodes satisfy the acceptance criterion for all targets", "statement": "A node is replaced by its COM only if every particle of the target critical node satisfies the multipole acceptance criterion (distance^2 > dim^2/theta^2, or distance > dim/theta + delta), and such a node contains no target particle.", "quantifier": "all trees, thetas", "why_tests_cant": "all trees", "anchors": ["include/rakau/tree.hpp: tree_acc_pot_mac_check, acc_pot_dispatch"]}
{"id": "C22", "title": "Without accepted nodes the result is the direct sum", "statement": "If no node satisfies the acceptance criterion (small theta), accs_u/pots_u agree, in exact arithmetic, with exact_acc_u/exact_pot_u for every particle.", "quantifier": "all trees and particles", "why_tests_cant": "unbounded", "anchors": ["include/rakau/tree.hpp: tree_acc_pot, exact_acc_pot_impl"]}
{"id": "C23", "title": "Vectorised self-interactions visit each pair exactly once and stay in bounds", "statement": "The batched self-interaction loop adds, for every pair a<b of real particles, the interaction of a on b and of b on a exactly once, for any batch size and node size, and touches only indices below tgt_size+batch_size-1.", "quantifier": "all node sizes, all batch sizes", "why_tests_cant": "all combinations", "anchors": ["include/rakau/tree.hpp: tree_self_interactions, acc_pot_impl"]}
{"id": "C24", "title": "SIMD padding never influences results", "statement": "Results for real particles do not depend on the padding slots: padding particles have zero mass and lie away from all particles, and they never make a node fail an acceptance test that all real targets pass.", "quantifier": "all trees, thetas, batch sizes", "why_tests_cant": "all geometric configurations", "anchors": ["include/rakau/tree.hpp: acc_pot_impl (pad_coord), tree_acc_pot_mac_check"]}
{"id": "C25", "title": "Newton's third law within a node and in the direct sum", "statement": "In exact arithmetic the mass-weighted sum of the accelerations from self-interactions of a node is zero, likewise for the direct sum over all particles.", "quantifier": "all particle sets", "why_tests_cant": "unbounded", "anchors": ["include/rakau/tree.hpp: tree_self_interactions, exact_acc_pot_impl"]}
{"id": "C26", "title": "The gravitational constant is a pure scale factor", "statement": "Results with constant G are G times the results with constant 1 in exact arithmetic, and the G==1 shortcut changes nothing.", "quantifier": "all inputs", "why_tests_cant": "unbounded", "anchors": ["include/rakau/tree.hpp: acc_pot_impl, exact_acc_pot_impl"]}
{"id": "C27", "title": "Ordered outputs are the unordered outputs permuted", "statement": "accs_o/pots_o/accs_pots_o write at output index perm()[i] the value that the _u variants write at index i; every output slot is written exactly once.", "quantifier": "all trees and histories", "why_tests_cant": "unbounded", "anchors": ["include/rakau/tree.hpp: acc_pot_dispatch, acc_pot_impl"]}
{"id": "C28", "title": "Invalid numeric parameters are rejected", "statement": "Non-finite or non-positive MAC values, non-finite or negative softening, non-finite G are rejected with domain_error before any computation, and accepted otherwise.", "quantifier": "all floating-point values", "why_tests_cant": "all values", "anchors": ["include/rakau/tree.hpp: acc_pot_dispatch, compute_eps2, check_G_const"]}
{"id": "C29", "title": "CPU/accelerator work splitting is a partition", "statement": "The computed split assigns each particle to exactly one worker: CPU critical nodes cover [0,k0), device i gets [k_i,k_{i+1}), the last index is n, indices are non-decreasing, and the CPU part ends on a critical node boundary; invalid split vectors are rejected.", "quantifier": "all split vectors and particle counts", "why_tests_cant": "all split vectors", "anchors": ["include/rakau/tree.hpp: acc_pot_impl (split handling)"]}
{"id": "C30", "title": "GPU kernels count every other particle exactly once", "statement": "For any grouping of threads into warps/wavefronts, the device traversal uses each other particle exactly once for each thread's particle, and accepted nodes never contain the particle of any voting thread.", "quantifier": "every tree, every warp composition, every acceptance outcome", "why_tests_cant": "all warp compositions", "anchors": ["src/rakau_cuda.cu: acc_pot_kernel", "src/rakau_rocm.cpp: acc_pot"]}
{"id": "C31", "title": "The collision graph is the exact AABB overlap graph", "statement": "For a tree whose leaves and AABB levels are above the deepest level, compute_cgraph returns for each particle exactly the set of other particles with non-empty AABB whose closed AABB overlaps its own (exact arithmetic).", "quantifier": "all particle sets, all AABB sizes", "why_tests_cant": "all configurations", "anchors": ["include/rakau/detail/tree_coll.hpp: compute_cgraph_impl"]}
{"id": "C32", "title": "The collision graph is symmetric, irreflexive, sorted and duplicate-free", "statement": "Each adjacency list is strictly increasing, never contains its own index, and j is in the list of i iff i is in the list of j; lists contain only indices below n; zero-size particles have empty lists.", "quantifier": "all inputs, all schedules", "why_tests_cant": "unbounded", "anchors": ["include/rakau/detail/tree_coll.hpp: compute_cgraph_impl"]}
{"id": "C33", "title": "Collision graph is schedule independent", "statement": "The result of compute_cgraph does not depend on the order in which concurrent tasks push candidate leaves, particles and edges.", "quantifier": "all interleavings", "why_tests_cant": "schedules cannot be enumerated", "anchors": ["include/rakau/detail/tree_coll.hpp: compute_cgraph_impl"]}
{"id": "C34", "title": "No undefined shift in the collision search", "statement": "The computation of the code range of a node never shifts by the full width of the code type.", "quantifier": "all nodes", "why_tests_cant": "the triggering trees need many coincident particles or tiny AABBs", "anchors": ["include/rakau/detail/tree_coll.hpp: tree_coll_node_range"]}
{"id": "C35", "title": "No undefined shift in the force traversal", "statement": "The shift amount used to compare the target code with the source code is always smaller than the code width.", "quantifier": "all trees", "why_tests_cant": "hardware masks the shift, so tests pass", "anchors": ["include/rakau/tree.hpp: tree_acc_pot (s_tgt_code)"]}
{"id": "C36", "title": "Copies are equal and independent; moved-from trees are empty and reusable", "statement": "A copy is observably equal to the original; moving transfers the full state and leaves the source observably equal to a default-constructed tree; self-assignment changes nothing.", "quantifier": "all states", "why_tests_cant": "all histories", "anchors": ["include/rakau/tree.hpp: copy/move ctors and assignments, clear"]}
{"id": "C37", "title": "A failed update leaves a valid empty tree", "statement": "If a user callback or the rebuild throws in update_particles_*/update_masses_*, the exception propagates and the tree is observably equal to a default-constructed tree (all invariants hold, and it can be used again).", "quantifier": "all states, callbacks and failure points", "why_tests_cant": "all failure points", "anchors": ["include/rakau/tree.hpp: update_particles_dispatch, update_masses_dispatch, clear"]}
{"id": "C38", "title": "Mass updates keep the structure and refresh node data", "statement": "update_masses_* changes no coordinate, code, permutation, or node range, and afterwards every node's mass/COM equals what a full rebuild with the new masses would store.", "quantifier": "all states and callbacks", "why_tests_cant": "all states", "anchors": ["include/rakau/tree.hpp: update_masses_dispatch, refresh of node properties"]}
{"id": "C39", "title": "Updating is equivalent to rebuilding", "statement": "After update_particles the sorted codes, node list and critical nodes equal those of a tree constructed from scratch from the current ordered data with the same parameters (same box, or re-deduced box).", "quantifier": "all states and callbacks", "why_tests_cant": "all histories", "anchors": ["include/rakau/tree.hpp: sync, construct_impl"]}
{"id": "C40", "title": "Exact results agree between ordered and unordered indexing", "statement": "exact_*_o(k) equals exact_*_u(inv_perm()[k]); exact_*_u(i) sums over every particle but i exactly once.", "quantifier": "all trees and indices below n", "why_tests_cant": "unbounded", "anchors": ["include/rakau/tree.hpp: exact_acc_pot_impl"]}
{"id": "C41", "title": "Constructor parameters are validated", "statement": "Construction throws invalid_argument iff the box size is non-finite or negative, max_leaf_n is 0, ncrit is 0, ranges have different lengths, a coordinate is rejected, or node data is non-finite; otherwise it succeeds.", "quantifier": "all inputs", "why_tests_cant": "all inputs", "anchors": ["include/rakau/tree.hpp: tree(KwArgs...), construct_impl, compute_node_properties"]}
{"id": "C42", "title": "Constructing a tree does not modify lvalue inputs", "statement": "A particle data vector passed as an lvalue keyword argument is unchanged after construction.", "quantifier": "all value-category combinations of the arguments", "why_tests_cant": "the failing combination mixes moved and non-moved arguments", "anchors": ["include/rakau/tree.hpp: gc_check_move_pdata, tree(KwArgs...)"]}
{"id": "C43", "title": "Checked additions detect every overflow", "statement": "checked_uinc throws exactly when the mathematical sum does not fit, and otherwise stores it; the atomic variant throws in exactly one increment when the total of concurrent increments crosses the maximum for the first time, whatever the order.", "quantifier": "all values and widths, all orders", "why_tests_cant": "2^128 pairs, all orders", "anchors": ["include/rakau/tree.hpp: checked_uinc"]}
{"id": "C44", "title": "Node counters cannot overflow", "statement": "The number of nodes is at most 1 + n*cbits and the number of critical nodes at most n, so the counters never overflow for n below max/(cbits+1).", "quantifier": "all particle sets", "why_tests_cant": "needs huge inputs", "anchors": ["include/rakau/tree.hpp: build_tree, checked_uinc"]}
{"id": "C45", "title": "Aligned allocation requests are valid and large enough", "statement": "For n <= max_size() the byte size passed to the allocator is at least n*sizeof(T), a multiple of the alignment, and does not wrap around.", "quantifier": "all n, alignments and element sizes", "why_tests_cant": "2^64 values", "anchors": ["include/rakau/detail/di_aligned_allocator.hpp: allocate, max_size"]}
{"id": "C46", "title": "The Newton step improves the fast reciprocal square root", "statement": "One Newton iteration maps a relative error e of y0 ~ 1/sqrt(x) to a relative error of at most 3/2 e^2 + 1/2 |e|^3, and never overshoots 1/sqrt(x) (exact arithmetic). In IEEE arithmetic with rounding unit u, fused or not, the relative error is at most 2 e^2 + 7 u for all normal x; for float and the documented estimates it is below 12 * 2^-24 (rsqrtps) and 8 * 2^-24 (rsqrt14).", "quantifier": "all positive x and estimates", "why_tests_cant": "continuum of inputs", "anchors": ["include/rakau/detail/simd.hpp: inv_sqrt_newton_iter"]}
{"id": "C47", "title": "Pretty printing shows the requested number of nodes", "statement": "pprint prints all nodes if the limit is 0 or at least the node count, otherwise exactly the limit and then an ellipsis line.", "quantifier": "all trees and limits", "why_tests_cant": "unbounded", "anchors": ["include/rakau/tree.hpp: pprint"]}
{"id": "C48", "title": "Device output ranges tile the output array", "statement": "Each device writes results of its particles at the right output offset (with or without output offsetting); ranges of distinct devices are disjoint and together cover exactly the accelerator part.", "quantifier": "all device counts and split indices", "why_tests_cant": "unbounded", "anchors": ["src/rakau_cuda.cu: cuda_acc_pot_impl"]}
{"id": "C49", "title": "Leading-zero count is right on every platform path", "statement": "Each clz code path (wide builtin, narrow type, 64-bit split in two halves) returns the number of leading zero bits of a non-zero argument.", "quantifier": "all non-zero values of 8..64 bit types", "why_tests_cant": "2^64 values", "anchors": ["include/rakau/detail/tree_fwd.hpp: clz"]}
{"id": "C50", "title": "Duplicate keyword arguments are rejected", "statement": "Passing the same keyword argument twice is rejected at compile time.", "quantifier": "all argument lists", "why_tests_cant": "type-level, all lists", "anchors": ["include/rakau/detail/igor.hpp: has_duplicates, is_repeated_named_argument"]}
{"id": "C51", "title": "Monopole error of an accepted node is bounded", "statement": "For non-negative masses and an accepted node, the potential of the COM approximation differs from the exact potential of the node's particles by at most a bound that depends only on mass, distance and theta.", "quantifier": "all nodes and targets", "why_tests_cant": "continuum", "anchors": ["include/rakau/tree.hpp: tree_acc_pot_mac_check, tree_acc_pot_src_com"]}
{"id": "C52", "title": "Memory accesses of the traversal are in bounds and it terminates", "statement": "The traversal visits strictly increasing node indices below the tree size, reads only particle indices below n, and terminates.", "quantifier": "all trees and acceptance outcomes", "why_tests_cant": "all trees", "anchors": ["include/rakau/tree.hpp: tree_acc_pot, tree_acc_pot_mac_check, tree_acc_pot_leaf"]}
{"id": "C53", "title": "Total results are written for every particle", "statement": "acc_pot writes every output index in [0,n) exactly once when run on the CPU, whatever the schedule of critical nodes.", "quantifier": "all trees and schedules", "why_tests_cant": "all schedules", "anchors": ["include/rakau/tree.hpp: acc_pot_impl (cpu_run)"]}
{"id": "C54", "title": "All data of a live tree are finite", "statement": "In every state reachable through the public interface, in any floating-point format and rounding, all particle coordinates, all masses, and all node data (centre of mass, mass, size, offset) are finite; non-finite masses are rejected although they are never checked individually.", "quantifier": "all operation sequences, all inputs", "why_tests_cant": "unbounded operation sequences and all special values", "anchors": ["include/rakau/tree.hpp: compute_node_properties, disc_single_coord, construct_impl, update_particles"]}
{"id": "C55", "title": "Error of accelerations is bounded", "statement": "For non-negative masses and theta such that kappa^2 >= d*theta^2 with kappa < 1, every component of the acceleration computed through the tree differs from the direct sum by at most an explicit function of kappa times the sum of mass over squared distance of all other particles; a single accepted node obeys the same bound.", "quantifier": "all particle sets, theta, softening, G, schedules", "why_tests_cant": "continuum of positions and masses", "anchors": ["include/rakau/tree.hpp: tree_acc_pot_mac_check, tree_acc_pot_src_com, tree_acc_pot_leaf"]}
{"id": "C56", "title": "Box size is finite, non-negative, and positive with particles", "statement": "In every state reachable through the public interface, in any floating-point format, box_size() is finite and not negative, and it is positive if the tree has particles, whether the box was given or deduced.", "quantifier": "all operation sequences, all inputs", "why_tests_cant": "unbounded operation sequences and all special values", "anchors": ["include/rakau/tree.hpp: determine_box_size, construct_impl, update_particles"]}
{"id": "C57", "title": "End to end: results for the user's arrays", "statement": "Over the reals, for any acceptable arrays of coordinates and non-negative masses, every tree built from them returns, at the index of each particle in the user's arrays, exact accelerations and potentials equal to Newton's softened direct sum, and tree approximations within the stated bounds of it; the same holds for every reachable tree with respect to the arrays shown by the ordered view.", "quantifier": "all input arrays, parameters, schedules and reachable states", "why_tests_cant": "continuum of inputs, end-to-end composition", "anchors": ["include/rakau/tree.hpp: tree constructors, accs_pots_o, exact_acc_pot_o, p_its_o"]}
{"id": "C58", "title": "Results do not depend on the order of the particles", "statement": "In exact arithmetic with non-negative masses, two trees over the same particles with the same box and parameters, however they came about (order of the input arrays, order of particles with equal codes after the sort, updates, schedules), give the same result for the same particle: permuting the input permutes the output of the ordered functions.", "quantifier": "all particle sets, permutations, histories, schedules, parameters", "why_tests_cant": "all permutations, ties and histories", "anchors": ["include/rakau/tree.hpp: construct_impl, sync, indirect_code_sort, accs_pots_o"]}
{"id": "C59", "title": "Results scale with lengths and masses, and do not depend on vector width", "statement": "Over the reals, multiplying coordinates, box size (given or deduced) and softening length by r > 0 and non-negative masses by mu > 0 multiplies every acceleration of the tree by mu/r^2 and every potential by mu^2/r exactly, for every theta, and the two runs may use different vector widths or none.", "quantifier": "all particle sets, factors, parameters, vector widths", "why_tests_cant": "continuum of inputs and factors", "anchors": ["include/rakau/tree.hpp: determine_box_size, disc_single_coord, compute_node_properties, tree_acc_pot_mac_check, accs_pots_o"]}
{"id": "C60", "title": "A smaller opening angle refines the computation", "statement": "For two valid opening angles theta <= theta' on the same tree, the computation with theta visits every node that the one with theta' visits, opens every leaf that it opens, and every node it uses as a whole lies in a node that the computation with theta' uses as a whole. (Proved in any rounding arithmetic for critical nodes that fill whole batches, in exact arithmetic for all vector widths if no mass is negative, and in IEEE arithmetic for all vector widths if the masses are positive and the data in range; false with masses of both signs and padding.)", "quantifier": "all trees, angles, critical nodes", "why_tests_cant": "continuum of angles and inputs; the visits are not visible from outside", "anchors": ["include/rakau/tree.hpp: tree_acc_pot_mac_check, tree_acc_pot, acc_pot_impl"]}
{"id": "C61", "title": "Rounding errors of the results are bounded", "statement": "In IEEE arithmetic of any standard format (single, double, extended), for data within a stated range: the exact functions return finite values that differ from Newton's softened sums over the reals, for the same input, by at most 2(n + 3d + 20) rounding units times the sum of the sizes of the terms, plus a multiple of the smallest rounding unit; the functions using the tree, with or without vector kernels and fused operations, have such a bound relative to the sum over the visited bodies (accepted nodes with the stored centre of mass and mass, and single particles).", "quantifier": "all particle sets in range, parameters, vector widths, schedules, formats", "why_tests_cant": "continuum of inputs; accumulation of rounding errors over n terms", "anchors": ["include/rakau/tree.hpp: tree_self_interactions, tree_acc_pot_leaf, tree_acc_pot_src_com, tree_acc_pot_mac_check, acc_pot_impl, exact_acc_pot_impl"]}
{"id": "C62", "title": "Which constructor calls are accepted", "statement": "A call of the keyword constructor compiles exactly if all arguments are named, no two of them agree in keyword, type and reference kind, all coordinates and the masses are given with one common type, and that type is a range without nparts or an iterator with nparts. A call that compiles throws before building exactly if max_leaf_n, ncrit or nparts is negative or does not fit in 64 bits, and reads beyond the data exactly if nparts is then greater than the length of one of the arrays.", "quantifier": "all argument lists and values", "why_tests_cant": "unbounded argument lists; calls that do not compile cannot be run", "anchors": ["include/rakau/tree.hpp: tree(const KwArgs &...), ctor_impl"]}
{"id": "C63", "title": "Coincident particles without softening give no finite results", "statement": "If two particles have the same coordinates and the square of the softening length is zero (also by underflow), then, in any arithmetic, with or without vector kernels and fast inverse square roots, for any masses including zero, every component of the acceleration of both particles is NaN and their potentials are not finite, from the exact functions and from the tree, which complete without error.", "quantifier": "all trees, particles, masses, parameters, schedules", "why_tests_cant": "continuum of inputs; all arithmetics and vector widths", "anchors": ["include/rakau/tree.hpp: tree_self_interactions, exact_acc_pot_impl, acc_pot_impl"]}
{"id": "C64", "title": "Node masses and centres of mass are accurate in IEEE arithmetic", "statement": "For a node whose particles have masses that are zero or in [1/b, b] and coordinates of size at most b, b in the range of the format, with N = particles + vector lanes and unit roundoff u: the stored mass is the sum of the masses up to a relative error 2 N u, and, if some mass is not zero, each coordinate of the stored centre of mass is the weighted mean of the coordinates up to 14 (N + 1) u times the weighted mean of their sizes plus (9 N b + 1) times the smallest rounding unit; so it lies inside the bounding box of the particles up to such an error. The horizontal vector sum may add the lanes in any order.", "quantifier": "all trees, nodes, data in range, IEEE formats, vector widths, with and without fused multiply-add", "why_tests_cant": "continuum of inputs; unbounded particle numbers and vector widths", "anchors": ["include/rakau/tree.hpp: compute_node_properties"]}
{"id": "C65", "title": "The error of the tree code in IEEE arithmetic is bounded", "statement": "In IEEE arithmetic of any standard format, for particles with positive masses and pairwise distinct positions in a stated range of the format, a tree over n particles in a domain of size B, an opening angle theta and a kappa < 1 with d (theta (1 + (d + 14) u) + rho)^2 <= kappa^2, where rho is 96 (n + lanes + 1) u B over the smallest softened distance: the functions using the tree return finite accelerations that differ from Newton's softened sums over the reals by at most a constant (kappa^2 (2/(1-kappa)^3 + 3/(1-kappa)^2 + 4/(1-kappa)) plus multiples of rho and u) times |G| times the sum of m/r^2, and potentials that differ by at most a constant of order kappa^2/(1-kappa) times |G| times the sum of m m'/r; plus a multiple of the smallest rounding unit. It covers rounding in the discretisation, the node properties, the acceptance check, the padding and the kernels, and the error of the method.", "quantifier": "all trees, data in range, opening angles, IEEE formats, vector widths, both acceptance criteria, with and without fused multiply-add and fast inverse square roots", "why_tests_cant": "continuum of inputs; unbounded particle numbers; compares with an exact real sum that floating-point tests cannot compute", "anchors": ["include/rakau/tree.hpp: tree_acc_pot", "include/rakau/tree.hpp: acc_pot_impl", "include/rakau/tree.hpp: compute_node_properties"]}
{"id": "C66", "title": "Accelerations and potentials computed together are those computed separately", "statement": "The functions that return accelerations and potentials (accs_pots_*) give bit by bit the accelerations of accs_* and fail with the same exceptions; they give bit by bit the potentials of pots_* with the scalar kernels and on accelerators. With the vector kernels the potentials may differ by rounding (the two functions order a product differently), and agree in exact arithmetic. The exact functions of one particle agree bit by bit.", "quantifier": "all states of the tree, all parameters, all outputs, all arithmetics, all schedules", "why_tests_cant": "two functions that must agree on all inputs; rounding differences are confined to one kernel", "anchors": ["include/rakau/tree.hpp: tree_acc_pot_leaf, batch_batch_3d_accs, batch_batch_3d_pots, batch_batch_3d_accs_pots", "include/rakau/tree.hpp: accs_u, pots_u, accs_pots_u", "src/rakau_cuda.cu: acc_pot_kernel"]}
{"id": "C67", "title": "Outputs given by iterators, vectors or initializer lists receive the results", "statement": "The overloads of the force functions write component j of the result of every particle to element i of output column j (acceleration components first, the potential last), i being the position of the particle in the order asked for; every particle has exactly the components asked for; elements beyond the number of particles keep their values. Vectors end with exactly n elements that do not depend on their previous size and contents; if the call throws, they have been resized, their first elements kept and new ones zero. An initializer list of the wrong size is rejected before any other check. Iterators with a narrow difference type: the ordered functions throw std::overflow_error when it cannot represent n, the unordered ones boost::bad_numeric_cast when it cannot represent the start of a critical node.", "quantifier": "all states of the tree, parameters, schedules, column lengths, difference types", "why_tests_cant": "unbounded column lengths and particle numbers; narrow difference types need huge inputs or unusual iterators", "anchors": ["include/rakau/tree.hpp: acc_pot_dispatch, acc_pot_impl, acc_pot_ilist_to_array", "include/rakau/detail/tree_fwd.hpp: compute_tree_nvecs_res"]}
{"id": "C68", "title": "The results of accelerators approximate Newton's law", "statement": "In IEEE arithmetic (any binary format, with or without fused multiply-add), for positive masses and data in range, every acceleration and potential computed by an accelerator, and every result of a computation distributed over CPU and accelerators, differs from Newton's law in real numbers by no more than a result of the CPU: a part of second order in the opening angle, and a part of rounding errors proportional to the number of particles. Relative to the bodies actually used (accepted nodes, other particles of the leaves) there are only rounding errors.", "quantifier": "all trees, particles, groups of threads, formats, splits, schedules", "why_tests_cant": "rounding errors and the approximation depend on all particles; accelerators and schedules cannot be enumerated", "anchors": ["src/rakau_cuda.cu: acc_pot_kernel", "src/rakau_rocm.cpp: rocm_acc_pot_impl", "include/rakau/tree.hpp: acc_pot_impl"]}
{"id": "C69", "title": "Results are reproducible bit by bit unless particles share a cell of the grid", "statement": "If no two particles have the same Morton code, two trees over the same particles with the same box size, max_leaf_n and ncrit are equal bit by bit except for the permutations between user order and tree order, however they came about: order of the input particles, updates, copies and moves, outcome of the sorts, schedule. Consequently all unordered functions have identical outcomes and all ordered functions give every particle the same result bit by bit, on the CPU, distributed over accelerators, in the exact functions and in the collision graph. With equal codes this fails: the order in which masses are added then depends on the input order.", "quantifier": "all reachable trees, renumberings, arithmetics, parameters, schedules", "why_tests_cant": "all input orders and update histories; bitwise equality under arbitrary rounding", "anchors": ["include/rakau/tree.hpp: construct_impl, build_tree, compute_node_properties, acc_pot_dispatch", "include/rakau/detail/tree_coll.hpp: compute_cgraph_impl"]}
{"id": "C70", "title": "A ROCm accelerator works on the current data of the tree", "statement": "After any sequence of constructions, copies, moves, assignments (also failing ones), clears, updates (also failing ones) and computations, a tree holds views for the accelerator iff there is one; they refer to the tree's own current buffers with the current numbers of particles and nodes, never to freed or foreign memory; views are never created while others exist; the program is terminated only for trees that an int cannot count; and a computation that uses the accelerator gives the results of the current particle data.", "quantifier": "all histories of trees, all failures, all parameters, both kinds of device memory", "why_tests_cant": "stale or dangling views depend on the history of calls and on the hardware; tests run one history without a device", "anchors": ["include/rakau/tree.hpp: rocm_init_state, rocm_reset_state, copy/move constructors and assignments, clear, sync, update_particles_dispatch, update_masses_dispatch, m_rocm", "src/rakau_rocm.cpp: rocm_state"]}
{"id": "C71", "title": "The parallel parts have no data races and give one result for all schedules", "statement": "In the parallel loops and task groups that copy the input, compute codes, apply sort permutations to particles, codes and permutations, invert permutations, recompute node properties, merge partial trees and lists of critical nodes, and compute accelerations and potentials on the CPU, no two tasks ever access the same array element at the same time with one of them writing; every access is within bounds; and for every partition of the ranges and every interleaving the memory ends up with the same contents, those of the sequential computation, or an exception is thrown, iff the sequential computation throws.", "quantifier": "all inputs, reachable trees, partitions of ranges, interleavings", "why_tests_cant": "the number of interleavings is astronomical, and tools that detect races see one of them at a time", "anchors": ["include/rakau/tree.hpp: construct_impl, build_tree, sync, apply_isort, perm_to_inv_perm, update_masses_dispatch, acc_pot_impl"]}
{"id": "C72", "title": "No assertion of a debug build fails", "statement": "In a build without NDEBUG no assertion fails during construction, updates of particles and masses (also failing ones), the collision graph, the distribution of work over CPU and accelerators, and destruction, for any input and any history of the tree, whatever the arithmetic, and the outcomes are exactly those of a build with NDEBUG: same results, same exceptions. (False for two assertions: the bounds of the coordinates in the destructor, since without fused multiply-add coordinates slightly below -box/2 are accepted; and the order of the split indices with CUDA in single precision beyond 2^24 particles.)", "quantifier": "all inputs, reachable trees, callbacks, splits, arithmetics, schedules", "why_tests_cant": "assertions are checked only for the inputs that tests happen to use; the failing ones need coordinates one unit in the last place outside of the box, or more than 16 million particles and two devices", "anchors": ["include/rakau/tree.hpp: encoders and decoders, apply_isort, build_tree, compute_node_properties, construct_impl, sync, destructor, tree_acc_pot, acc_pot_impl", "include/rakau/detail/tree_coll.hpp: compute_cgraph_impl", "include/rakau/detail/tree_fwd.hpp: tree_level", "src/rakau_cuda.cu: cuda_acc_pot_impl", "src/rakau_rocm.cpp: rocm_acc_pot_impl"]}
{"id": "C73", "title": "CUDA host code leaves no resources behind, reports failures, and delivers the results", "statement": "Whatever the calls of the CUDA runtime return, cuda_acc_pot_impl uses memory, streams and devices only legally, and when it returns or throws all device memory is freed, all streams are waited for and destroyed, and all host memory is unpinned; it never ends the program. It returns only if nothing failed, and then result j of every particle of the devices is in the result array j at the position of the particle, and no other host memory has changed. Operations of different streams do not conflict. Host memory that is read, written or registered exists.", "quantifier": "all numbers of devices, dimensions, result arrays, particles and nodes, all split indices, and all results of all calls", "why_tests_cant": "needs CUDA devices, and failures of each single call, which cannot be provoked in tests", "anchors": ["src/rakau_cuda.cu: make_scoped_cu_array, wrappers, cuda_acc_pot_impl", "include/rakau/tree.hpp: acc_pot_impl (CUDA part)"]}
{"id": "C74", "title": "Parameters given in other arithmetic types arrive as the nearest value, or the call throws", "statement": "box_size, G and eps may be given in any integer or floating-point type: the tree uses the nearest value of its own floating-point type (of two, the even one), exactly the given value if the type has it, and order is preserved; NaNs and infinities are passed on if they are not refused; bad_numeric_cast is thrown exactly if the given type has more digits and the value is infinite or beyond the largest finite value. max_leaf_n, ncrit and nparts may be given in any arithmetic type: integers arrive unchanged, and bad_numeric_cast is thrown if the value is negative or not below 2^64. (False for integer parameters given as floating-point numbers: 2.5 is silently truncated to 2, and NaN is undefined behaviour.)", "quantifier": "all argument lists, all numbers of all integer types up to 64 bits and all binary floating-point types", "why_tests_cant": "all pairs of types and all values, among them ties and values between the largest float and its successor", "anchors": ["include/rakau/tree.hpp: generic constructor (box_size, max_leaf_n, ncrit, nparts), parse_accpot_kwargs"]}
{"id": "C75", "title": "All methods of the bundled libmorton interleave and separate bits, and agree", "statement": "Every encoder of the bundled libmorton (two and three dimensions; one or several tables, early termination, magic bits, loops, BMI2) maps coordinates to the number whose bits are the interleaved bits of the coordinates, every decoder inverts this, so that any encoder can be combined with any decoder and with the ones rakau uses, and the generators of the tables produce the tables of the library. (False in several cases outside of what rakau calls: decoding loops always shift by the width of the code; early termination shifts too far for numbers with the highest bit; gcc's search for the first bit is wrong for 32-bit types; 32-bit masks are read with the wrong element size where uint_fast32_t has 64 bits.)", "quantifier": "all coordinates and codes, 16/32/64-bit coordinates, 32/64-bit codes, 2 and 3 dimensions, platforms", "why_tests_cant": "2^64 codes for each method, and the failing cases depend on platform and on the highest bit", "anchors": ["include/rakau/detail/libmorton: morton2D.h, morton3D.h, morton_common.h, morton_BMI.h, morton_LUT_generators.h"]}
{"id": "C76", "title": "Results do not depend on what the temporary vectors of the threads contain", "statement": "The temporary vectors of the force functions belong to the threads and keep their sizes and contents from one node, call and tree to the next, also after exceptions. For any contents and sizes of them, any contents of new memory, any assignment of critical nodes to threads, and any sequence of earlier calls, also failed ones: a call has exactly the outcome of a call on fresh vectors, results and exceptions, or throws std::bad_alloc, the latter only if a request for memory failed during the call. So two calls with the same arguments on the same tree give the same results bit by bit.", "quantifier": "all reachable trees, parameters, quantities, schedules, thread assignments, memory contents, allocation failures, sequences of calls", "why_tests_cant": "stale data depends on the history of each thread, on the scheduler and on uninitialised memory", "anchors": ["include/rakau/tree.hpp: tgt_tmp_data, acc_pot_tmp_res, acc_pot_tmp_vecs, tree_acc_pot, tree_acc_pot_mac_check, tree_acc_pot_src_com, acc_pot_impl", "include/rakau/detail/di_aligned_allocator.hpp: construct"]}
{"id": "C77", "title": "Updates are accepted exactly when a construction from the edited data would be", "statement": "update_particles_o/u has, for every callback that returns, the same possible outcomes as constructing a new tree from the edited arrays with the box size (given or to be deduced), max_leaf_n and ncrit of the tree: it succeeds iff the constructor does, and throws the same exception otherwise. It succeeds, or throws the callback's exception, or throws invalid_argument; after an exception the tree is empty. In exact arithmetic it succeeds exactly if all data are finite and all particles are in the given box (or, if the box is deduced, not all are at the origin), and update_masses_o/u succeeds exactly if all masses are finite afterwards; else both throw invalid_argument.", "quantifier": "all reachable trees, callbacks, arithmetics, and all outcomes of the sorts", "why_tests_cant": "all histories of trees and all edits; acceptance depends on data at the faces of the box and on overflow of sums in nodes", "anchors": ["include/rakau/tree.hpp: update_particles_dispatch, update_masses_dispatch, sync, construct_impl, clear"]}
{"id": "C78", "title": "The leapfrog integration of the benchmark moves every particle with its own velocity and acceleration", "statement": "The program of benchmark_leapfrog.cpp keeps velocities outside of the tree, in tree order, and follows the reordering of the particles with last_perm(). In any arithmetic and for any schedules, sorts, parameters and data: it has no undefined behaviour, and in user order each step is kick, drift, kick of each particle with its own velocity and the accelerations that the ordered functions of the tree give for it; masses never change. In real numbers and for a small opening angle: a run is the leapfrog scheme for Newton's law; momentum and angular momentum are constant and the centre of mass moves uniformly; a run can be reversed; and no step fails as long as the centre of mass is away from the origin in some component. The printed total energy is the total energy. (The last sentence is false: the potentials of the tree already are energies of pairs, so that adding them counts each pair twice; proved.)", "quantifier": "all numbers of particles, steps, positions, velocities, masses, time steps, arithmetics, schedules, outcomes of sorts", "why_tests_cant": "a run reorders the particles at every step in ways that depend on the data; errors in following the order show up as slow drifts only", "anchors": ["benchmark/benchmark_leapfrog.cpp: main (runner)", "include/rakau/tree.hpp: last_perm, update_particles_u, accs_u, accs_pots_u"]}
{"id": "C79", "title": "The tasks of the parallel tree builder give one tree in every interleaving of their operations", "statement": "For sorted codes, any splitting of the children of each node into blocks and any threshold for parallel building: in every interleaving of the single operations of the tasks (push_back on the concurrent vectors, reads and writes through the references that push_back returned, atomic additions to and reads of the counters of children, the assignment to the root), no two tasks access the same element with one of them writing; no counter overflows and no task throws, in whatever order the counters are increased; every execution ends, and only when all tasks are finished; there is a complete run; and whatever has been pushed in whatever order, sorting and merging it gives the same tree and critical nodes, those of the serial builder.", "quantifier": "all sorted code vectors, tree configurations, block splittings at every node, thresholds, interleavings of single operations", "why_tests_cant": "races and lost updates show up in few of astronomically many interleavings, and only on some machines", "anchors": ["include/rakau/tree.hpp: build_tree_par_impl, build_tree_ser_impl, build_tree_impl, build_tree_inc_child_count"]}
{"id": "C80", "title": "In floating-point arithmetic the collision graph misses no collision, and reports only collisions up to rounding", "statement": "In IEEE arithmetic, compute_cgraph_o/u returns a graph with an edge between any two different particles whose (non-empty) AABBs overlap in exact arithmetic, and with edges only between particles whose AABBs would overlap if they were closer by 3 u b, where u is the unit roundoff and b the box size. (False: if the size of an AABB is just below a size of cells, e.g. the largest number below b/4, the AABB can reach over three cells in a dimension because of rounding, and the search, which looks at the cells of the vertices only, misses particles in the middle cell although they are inside the AABB. True if the sizes are zero or between the size of a cell and the box size, and not within 16 u b below a size of cells.)", "quantifier": "all reachable trees, binary floating-point formats, with or without fused multiply-add, sizes, schedules", "why_tests_cant": "depends on the last bit of the size; random sizes hit it with probability 2^-50", "anchors": ["include/rakau/detail/tree_coll.hpp: tree_coll_size_to_level, tree_coll_get_aabb_codes, compute_cgraph_impl", "include/rakau/tree.hpp: disc_single_coord, clamp"]}
{"id": "C81", "title": "The collision benchmark reports the number of colliding pairs", "statement": "The number that benchmark_coll prints (half of the sum of the lengths of the lists of compute_cgraph_o/u, for AABBs of one size) is the number of unordered pairs of the user's particles whose AABBs overlap, for both numberings of the particles and every schedule: exactly in exact arithmetic (tree above the deepest level, size at least one cell, fewer than 2^64 ordered pairs); in IEEE arithmetic it is between the number of pairs whose AABBs overlap and the number of pairs at most 3 u b further apart than that; in any arithmetic it is the number of edges of the graph, and zero for empty AABBs.", "quantifier": "all reachable trees, sizes, numberings, schedules", "why_tests_cant": "a count over all pairs of particles; the benchmark has no reference value", "anchors": ["benchmark/benchmark_coll.cpp: main", "include/rakau/detail/tree_coll.hpp: compute_cgraph_impl"]}
{"id": "C82", "title": "Total force, torque and energy of the tree code agree with Newton's up to its error", "statement": "In real arithmetic, for an opening angle theta with sqrt(d) theta <= kappa < 1: the sum over all particles of mass times computed acceleration is at most the bound of C55 summed over the particles (for Newton's accelerations it is zero), likewise the total torque, and the sum of the computed potentials is twice the binding energy up to the relative error of C51. In the leapfrog benchmark the total momentum changes by at most the sum of these bounds times the time step, for any number of steps. In IEEE arithmetic the bounds on force, torque and energy hold with the constants of C65, for positive masses and data in range. (The total force is not exactly zero: the forces between a particle and a node that it accepts need not be opposite.)", "quantifier": "all reachable trees, opening angles, instruction sets, quantities, schedules, numbers of steps", "why_tests_cant": "a bound over all configurations; tests see single trajectories", "anchors": ["include/rakau/tree.hpp: acc_pot_dispatch, tree_acc_pot_cpu", "benchmark/benchmark_leapfrog.cpp: main"]}
{"id": "C83", "title": "Moving all particles together leaves their accelerations the same, up to the error of the tree", "statement": "The program benchmark_move (tree accelerations and direct sum for one particle, update_particles_u that adds the same number to all coordinates, both again) has no undefined behaviour. In real arithmetic, for an opening angle theta with sqrt(d) theta <= kappa < 1, distinct positions and a deduced box, it prints four lines: the two lines of the direct sum are the same, Newton's acceleration of the user's particle, found through inv_perm() before and after; the lines of the tree are within the bound of C55 of it, hence within twice the bound of each other. (The lines of the tree need not be the same: the deduced box moves, and other nodes are accepted.)", "quantifier": "all particles, displacements, opening angles, instruction sets, schedules, outcomes of the sorts", "why_tests_cant": "a bound over all configurations; the benchmark prints numbers for one", "anchors": ["benchmark/benchmark_move.cpp: main", "include/rakau/tree.hpp: update_particles_u, accs_u, exact_acc_u, inv_perm"]}
{"id": "C84", "title": "Exchanging or reversing axes does the same to the results", "statement": "In real arithmetic, with the same box (given or deduced), exchange the coordinate axes of all particles by a permutation sigma, reverse some of them, and give the particles in another order. If no particle lies on a face of the grid of cells along a reversed axis, the two trees have corresponding nodes with the same numbers of particles and the same levels, the traversals accept corresponding nodes, and each user's particle gets exactly the same potential and the same acceleration with its components exchanged and reversed in the same way, approximations included. The order of the children in a Morton code and the order of the axes in the loops have no effect. Without the condition about faces this is false: a particle on the lower face of the box is accepted, its mirror image is rejected.", "quantifier": "all particles, permutations of axes, sets of reversed axes, orders of the particles, opening angles, checks, softenings, instruction sets, schedules, outcomes of the sorts", "why_tests_cant": "an equality for all inputs of approximate results; a test compares each result with a direct sum within a tolerance", "anchors": ["include/rakau/tree.hpp: disc_coords, build_tree, tree_acc_pot_mac_check, acc_pot", "include/rakau/tree.hpp: morton_encoder"]}
{"id": "C85", "title": "The benchmarks print the same lines with and without the option ordered, and the right ones", "statement": "The programs benchmark_acc, benchmark_pot and benchmark_acc_pot (results of the tree for all particles, the result of one particle printed, then that of the direct sum) have no undefined behaviour: an index that is too large is rejected. In any arithmetic, IEEE included, the programs with the option ordered (functions *_o) have exactly the same possible outputs as without it (functions *_u and inv_perm()), bit by bit, exceptions included. In real arithmetic, for an opening angle theta with sqrt(d) theta <= kappa < 1, distinct positions and non-negative masses, the second line is Newton's acceleration or the potential energy of the particle idx of the input, and the first is within the bounds of C55 of it.", "quantifier": "all data, parameters, indices, instruction sets, schedules, outcomes of the sorts", "why_tests_cant": "equality of outputs and bounds over all inputs; the benchmarks print numbers for one", "anchors": ["benchmark/benchmark_acc.cpp: main", "benchmark/benchmark_pot.cpp: main", "benchmark/benchmark_acc_pot.cpp: main", "benchmark/common.hpp: parse_accpot_benchmark_options", "include/rakau/tree.hpp: accs_o, accs_u, pots_o, pots_u, accs_pots_o, accs_pots_u, exact_acc_o, exact_acc_u, exact_pot_o, exact_pot_u, inv_perm"]}
{"id": "C86", "title": "The initial data of the benchmarks are complete, within the limits, and accepted by the tree", "statement": "get_plummer_sphere, for any random numbers drawn and, in the parallel version, any division into blocks and interleaving of the threads, throws invalid_argument exactly if a is not finite and positive or size is not finite and non-negative, and otherwise returns 4 n numbers: n masses, then x, y and z; each particle gets a mass drawn and the finite coordinates of one candidate drawn (never a mixture of candidates or a zero left over), each in [-limit, limit) with limit = size/2 - size/100 as rounded, if the size is not zero. Without rounding the constructor accepts the data with a box of that size, and with a deduced box unless all particles are at the origin. If one candidate is within the limits, there is an outcome for any n. (Defined and returning for all n and all accepted sizes: false. For n = 2^62 the size n * 4u of the vector wraps around to zero and the function writes out of bounds; for the smallest positive double as size the limit is rounded to zero, all candidates are rejected and the function never returns.)", "quantifier": "all random numbers, blocks, interleavings, numbers of particles, sizes, arithmetics, values of sin and cos up to one in size", "why_tests_cant": "all sequences of random numbers and interleavings; the failures need extreme arguments", "anchors": ["benchmark/common.hpp: get_plummer_sphere", "include/rakau/tree.hpp: tree constructors"]}
{"id": "C87", "title": "The function of the ROCm backend computes the results of any range of particles and nothing else", "statement": "rocm_state::acc_pot(p_begin, p_end, out, ..., offset_output), for any range of particles p_begin <= p_end <= nparts, writes the result of each particle of the range to its place in the output (from its start, or from p_begin with offset_output) and nothing else, each computed in a wavefront of particles of the range. (False: the kernel compares the index of a thread with the number of particles of the tree, not with p_end; if the range ends before the last particle and its length is not a multiple of the size of a wavefront, a thread past the range writes beyond the end of the views. True for ranges that end at the last particle, as in the only call, and for multiples of the size of a wavefront.)", "quantifier": "all reachable trees, ranges, outputs, sizes of wavefronts, device arithmetics, parameters", "why_tests_cant": "needs ROCm hardware; the only caller passes ranges up to the last particle", "anchors": ["src/rakau_rocm.cpp: rocm_state::acc_pot", "include/rakau/detail/rocm_fwd.hpp: rocm_state"]}
{"id": "C88", "title": "The initial data of the tests lie in the box and are accepted by a tree with the same box size", "statement": "get_uniform_particles(n, size) of the tests, for any random numbers in [0, 1), returns n (D + 1) numbers: the n masses drawn, then the coordinates of all particles, dimension by dimension; in a binary format each coordinate lies in [-size/2, size/2), the upper end never reached in spite of rounding, for every size of the format that is at least twice the smallest normal number, and is within 1.5 units of roundoff, relative to the size, of its exact value for a random number of its own. The constructor accepts the data with size as box size, without rounding for all positive sizes, and in a binary format for all sizes that are powers of two, with and without fused multiply-add; for any other size, if the random numbers stay 3 units of roundoff away from 0 and 1. (For all sizes in IEEE arithmetic: false. With fused multiply-add and size 10 in double a random number 0 gives the coordinate -5, which the constructor rejects; without it and size 117 the largest random number below 1 gives a coordinate below 58.5 that is rejected. For n = 2^62 in three dimensions the size of the vector wraps around and the masses are written out of bounds.)", "quantifier": "all random numbers, numbers of particles, sizes, binary formats, both settings of fused multiply-add", "why_tests_cant": "the failures need random numbers of probability about 2^-53 per draw (2^-25 in float); the tests use fixed seeds", "anchors": ["test/test_utils.hpp: get_uniform_particles", "include/rakau/tree.hpp: tree constructors, disc_single_coord"]}
{"id": "C89", "title": "The exact functions are defined for the indices of particles, and never check the index", "statement": "exact_acc_u/o, exact_pot_u/o, exact_acc_pot_u/o first check the parameters: with unusable ones every index, also one out of range, gives the same exception. With usable parameters the ordered functions return a value exactly for the indices below the number of particles and otherwise read beyond the end of the permutation, also in an empty tree; the unordered functions return a value for these indices and otherwise read beyond the end of the particles, except in an empty tree (default constructed, moved from, or after a failed update), where they return zeros for any index. No index throws.", "quantifier": "all states of trees, indices, parameters, quantities, arithmetics", "why_tests_cant": "a read beyond the end often goes unnoticed; tests use valid indices", "anchors": ["include/rakau/tree.hpp: exact_acc_pot_impl, exact_acc_u, exact_pot_u, exact_acc_pot_u, exact_acc_o, exact_pot_o, exact_acc_pot_o"]}
