# Formal model of rakau: design

rakau (source in /repo, read as text only, never built or run) is a C++17 Barnes-Hut tree library. This directory holds a Lean 4 model of its logic and
machine-checked proofs of the properties in `properties.jsonl`. `MANIFEST.json` maps each property to theorem names; `seeded/LOG.jsonl` records wrong
programs the theorems were tested against.

## Layout

* `lean/Verif/Model/*.lean`: the model, function by function. Every definition cites the file and lines it stands for.
* `lean/Verif/Spec/*.lean`: small specifications, independent of the model's helpers (paths, interleaving, geometry, gravity, plain tables, graphs, work
  shares). Some statements that need no shared vocabulary are specified beside the theorem.
* `lean/Verif/Proof/*.lean`: lemmas.
* `lean/Verif/Props/*.lean`: the property theorems `Cnn_…`, each with an `example` that instantiates its hypotheses on concrete, non-trivial data.
* `lean/Verif.lean` imports all of it; `lake build` checks everything.

## Trusted base

* Lean 4.33.0's kernel, and Mathlib as installed (its theorems are checked by the same kernel).
* The axioms listed at the end of this file per theorem: at most `propext`, `Classical.choice`, `Quot.sound`. No axiom is added; there is no `sorry`,
  `admit`, `native_decide`, `bv_decide`, `implemented_by` or `unsafe`. Finite tables and concrete examples are evaluated by the kernel (`decide +kernel`).
* The reading of the C++ text. Nothing ties the model to the compiled code mechanically.
* The specifications: that they say what the property says.
* Contracts of libraries, assumed as follows:
  - `std::equal_range/lower_bound/upper_bound` return the partition points of a partitioned range;
  - `std::sort`, `tbb::parallel_sort` return *some* permutation of the input ordered with respect to the comparator (no stability, any tie-breaking:
    theorems quantify over all outcomes);
  - `tbb::concurrent_vector::push_back` from concurrent tasks gives *some* order of the elements, references stay valid (C79 models the pushes as atomic operations on a shared memory);
  - `tbb::parallel_for/parallel_reduce/task_group` run the bodies on some partition of the range in some order; bodies that write to disjoint places are
    modelled as a sequence in an arbitrary order; C71 derives this from interleavings of single reads and writes for the plain-memory regions;
  - C++ programs without data races behave as interleavings (the guarantee of the C++ memory model for programs without relaxed atomics), so that it is
    enough to look at interleavings, both for the absence of races and for results;
  - `std::vector`, `boost::permutation_iterator`, `boost::numeric_cast`, `std::bitset`, `std::atomic::fetch_add`, compiler intrinsics (`clz`), `xsimd` lane
    operations and the CUDA/HC votes behave as documented.

## Modelling conventions

* Unsigned integers of `w` bits are `Nat` values with an explicit `% 2 ^ w` wherever the C++ can wrap. `std::size_t` has 64 bits.
* Undefined behaviour is a distinct outcome (`none`, or `Err.ub`), never a number: over-wide shifts, out-of-range conversions of floating-point values,
  accesses beyond the end of a buffer.
* Exceptions are values: `Err.invalidArg`, `.overflow`, `.domain`, `.user` (thrown by a user's callback).
* Operations with arbitrary choices (sorting, schedules, moved-from contents, failure points) are relations or take the choice as an argument; theorems hold
  for all choices.
* Loops are structural recursions or folds; mutation through references returns the new value.
* The number of dimensions `d` and the code width `w` are parameters; `Supported w d` stands for the static assertions (32 or 64 bits, 2 or 3 dimensions).

### Floating point (`Model/Fl.lean`, `Model/Round.lean`)

* `Fl K` is NaN, ±infinity or a finite value in an ordered field `K`. An operation is computed exactly in `K` and rounded with `Arith.rnd`; `Arith.sqrt` is a
  parameter; `Arith.fused` says whether `fma_wrap` (tree.hpp:182-207) and device expressions are fused.
* Instances: exact arithmetic over ℚ and ℝ (`realA`, with `Real.sqrt`), and `Format.ieee` for any binary format, in particular `binary32`, `binary64` and
  the x87 `long double`: rounding to nearest even with subnormals and overflow, correctly rounded square root.
* Simplifications: one zero (no operation of the code observes its sign except `1 / 0`, non-finite for both), one NaN, default rounding mode, no flags, no
  compiler contraction of CPU code.
* Classes of arithmetic in theorems: *any* `Arith`; `Arith.Laws` (rounding monotone, idempotent, exact on 0, 1/2 and small powers of two: proved for exact
  arithmetic and for every binary format in `Proof/Round.lean`); `Arith.Exact`. `MANIFEST.json` says which one each claim uses.
* Further hypotheses, all instantiated by examples: `SqrtOk` (square root finite, positive, not above √2 times the truth), `SqrtGe`, `SelfOk` (device root at
  1 and above), `EstOk` (hardware estimate of the inverse root finite), `TrueRoot` (root exact at the distances that occur; over ℝ no such hypothesis is
  left: `C51_real`, `C57_*`), `Simd.Ok`/`HaddNonfin` (horizontal sums exact / not finite for non-finite lanes). `Sit` bundles the setting of the force
  theorems; its fields `data`, `box` and `bpos` follow from `C54_data` and `C56_box` for every reachable tree with particles.

### Tree state (`Model/State.lean`)

* `TS` holds the members of `tree` (tree.hpp:3839-3884) except `m_rocm`, which `VTree` in `Model/Views.lean` adds (C70). `Reach` is the set of states reachable through the public interface: construction,
  updates (successful or failed, with arbitrary callback programs), copies, moves, assignments (with failures at any point), `clear`.
* The state machine is generic in an environment `Env` (box check, box deduction, code of a particle, node properties); `rakauEnv` is the environment of the
  code. The laws of `EnvOk` are proved for it (`C39_environment`).
* Hypothesis `n * cbits < 2 ^ 64`: a particle with its codes, permutations and coordinates takes at least 40 bytes and `cbits` is at most 31, so the address
  space is exhausted before it fails. It makes the counters of the tree builder exact (C44).
* The parallel build (`IsBuild`) is a set of pushes in any order; merging and sorting of the per-task vectors is one sort with an arbitrary outcome. The value
  read by `treeLt` past the end (`getD`) is never reached, by C44.

### Parallel regions (`Model/Par.lean`, `Regions.lean`)

* `Par.P` are fork-join programs of single reads and writes, `Exec` their interleavings; an exception ends its task, the other tasks may go on or be cancelled. Blocks are lists of indices that
  together are the range: any split, in any order.
* Modelled: copy of the input, initial permutations, codes, the tasks after the sorts in construction and `sync`, node properties in `update_masses_*`, the merge of partial trees and critical nodes, the CPU part of
  the force computation. Memory is an array element per location; the members of a node that hold its properties are a location apart from the others.
* Tasks for node properties and forces read all particles and nodes, while the tasks of the library read a part of them: more reads can only add races.
* Not modelled as interleavings: `tbb::parallel_sort`, `tbb::parallel_reduce`, the root's properties that are
  computed while the builder runs (it assigns `m_tree[0].n_children`, a member that `compute_node_properties` does not touch), devices that run beside the CPU (C29).

### Tasks of the tree builder (`Model/Builder.lean`)

* `build_tree_par_impl` and the part of `build_tree_impl` up to the sorts, as a fork-join program whose single operations are: `push_back` on a concurrent vector (the reference is the new element), read and write of an
  element through a reference, creation of an atomic counter, atomic addition (with wrap-around at the width of `size_type`) that gives the old value, atomic load, assignment to `m_tree[0]`. `Exec` are the interleavings.
  An exception ends its task; other tasks go on.
* A call of the serial builder for a subtree works through references to the element of each vector that its task has pushed: it is one read and one write of each. Nobody else accesses these elements meanwhile (`C79_no_race`).
* The codes and particles are only read during the build, so their reads are not operations. Node properties are computed for a local object from the particles (C17).
* Memory orders: all operations of an atomic counter are in one order, as the default `memory_order_seq_cst` gives. The lifetime of counters is the task group that creates them and is not modelled (references to counters stay valid).

### Temporary vectors (`Model/Buffers.lean`)

* The force computation on the `static thread_local` vectors of the threads (`tgt_tmp_data`, `acc_pot_tmp_res`, `acc_pot_tmp_vecs`), one per component, that keep sizes and contents from the last use, also after exceptions.
  New elements have arbitrary values, every enlargement can fail with `std::bad_alloc`. Threads handle critical nodes in any assignment, one node after the other: what a thread does touches only its own vectors and
  outputs (C71), so that the order between threads has no effect.
* The first use of a vector of a thread (its construction) cannot fail in the model. Calls whose exception escapes from a parallel loop may have other tasks still running until the loop returns; their effect on the vectors is covered
  by the theorems' arbitrary memory, their effect on the outputs is not described (the call has failed).

### Forces (`Model/Trav.lean`, `Kernel.lean`, `Loops.lean`, `AccPot.lean`, `Overloads.lean`)

* The traversal is a list of visits; the kernels act on one lane. Buffers are lists of particles (the code has one array per component, accessed at the same
  indices). The scalar code path is the vector path with batch size 1: same iterations, same order of operations.
* `Overshift` gives the meaning of over-wide shifts in the traversal (C35): theorems hold for every meaning that does not increase the operand (`Small`), in
  particular the masked shift of x86 and zero.
* SIMD operation counters and timers are not modelled.
* `AccPot.lean` has one result per particle; `Overloads.lean` has the output columns of the public overloads (C67 relates them).

### Accelerators (`Model/Gpu.lean`, `Model/Split.lean`)

* CUDA and ROCm kernels are one model; a warp or wavefront is a list of particle indices which votes uniformly. Conversions to `int` are exact as launches are
  guarded.
* `Model/Views.lean` models when the ROCm views are created and destroyed. A buffer is an arbitrary number chosen at each allocation; views are bound to the buffer
  that the tree had when they were created. `rocm_init_state` (tree.hpp:1495-1508) is `noexcept` but calls a throwing `numeric_cast<int>`: the outcome `terminate`.
  Assumption on `hc::array_view`: with `Rt.cache` the first kernel that uses a view copies the host data, and later kernels use this copy, as documented for views
  that are not refreshed; without it (shared memory) kernels read the host data. Both are covered by the theorems. CUDA copies all data in every call and has no views.
* Split products `double * float` are computed in double. `it_diff_check` inside the split code is not repeated.
* The host side of CUDA (`Model/CudaHost.lean`) is a program over an arbitrary runtime, which decides the result of every call; it yields the list of calls and how the function ends: normally, with an
  exception, or with `std::terminate`. Scopes are explicit: `within` runs a destructor in any case, `onThrow` only on exceptions. Handles are numbers of calls. `Spec/Cuda.lean` says which
  sequences of calls are legal, what they leave, and what successful launches and copies do. Simplified: host allocations (`std::vector`) do not fail; elements of a vector are destroyed in order, as
  in libstdc++; waiting for a stream ends its operations even if it reports an error; the contents of arrays are abstract values, the kernels are those of `Model/Gpu.lean`.
* `Model/Rocm.lean` has `rocm_state::acc_pot` on any range, with its own bound check; for the calls of the tree it agrees with the common model (`launchRocm_eq`).
* Not modelled: the host side of ROCm except its views (data transfers by `array_view`s, errors of its runtime).

### Collision graph (`Model/Coll.lean`), keyword arguments (`Model/Kwargs.lean`), other parts

* Collision graph: concurrent vectors with any order within each vector; the assertions are in `Model/Asserts.lean`; numeric casts of sizes are covered by C43.
* Keyword arguments: an argument is its tag, value type and reference kind; contents of moved-from vectors are arbitrary. There
  parameters have the types of the library; `Model/Numbers.lean` adds parameters of other arithmetic types and `boost::numeric_cast`. Boost's semantics are taken from its documentation (its source was
  not at hand): range checks for conversions to integers and to floating-point types of lower precision only, truncation on conversion to integers. Integers have at most 64 bits.
  `mac_value` is a parameter of type `F` and is converted by the compiler without checks.
* Allocator: the `aligned_alloc` variant; the macOS variant is not modelled.
* Printing: sequence of lines; number formatting of `std::ostream` is not modelled (except `std::bitset`).

### Assertions (`Model/Asserts.lean`)

The functions of the other files again, with the `assert`s of builds without `NDEBUG` at their places. A failed assertion is an outcome of its own (`Stop.failed` with file and line), different
from exceptions and undefined behaviour. All assertions of tree.hpp, tree_coll.hpp, tree_fwd.hpp, rakau_cuda.cu and rakau_rocm.cpp are included except: tree.hpp:936-937 (tree and critical nodes
empty before the build: the model's build starts from nothing, and `sync` clears both, lines 3737-3738), tree.hpp:1501 (views of accelerators, C70). Where code for each combination of width and
dimensions repeats an assertion, the model has one, with the first line. The assertions of the encoder compare with libmorton's other encoder: the BMI2 version with `pdep`, or the tables
with `uint_fast` types of any width that the standard allows. The sort by the destructor of the two permutations is a sorted rearrangement; `std::unique` compares neighbours. Concurrent tasks that
fail: an execution stops at a failed assertion of any task. Order of evaluation within an assertion's expression is as written.

### Other methods of libmorton (`Model/Libmorton.lean`)

rakau calls `m2D_e_sLUT`, `m3D_e_sLUT`, `m2D_d_sLUT` and `m3D_d_sLUT` (`Model/Morton.lean`) and, in assertions, the default encoders. The bundled header contains more, so the other methods are
modelled as well: tables with one array, early termination (`_ET`), magic bits, loops, BMI2, and the generators of the tables. Shifts by the width of the operand or more are `none`. So are reads of
32-bit masks through a pointer to a type of another size than the element type of the array. Parameters are the widths, the compiler branch of `findFirstSetBitZeroIdx`, and the width of
`uint_fast32_t`. Simplified: the loops for each coordinate run separately, with the same rounds; `float` computations of the number of rounds are exact as their values are below 2^24 or compared
only with small numbers; printing of the tables and the AVX512 variants are not modelled.

### A client: leapfrog integration (`Model/Leapfrog.lean`)

The main loop of benchmark/benchmark_leapfrog.cpp, for any dimension, width, arithmetic and initial data: it shows the library in use by a program that keeps per-particle data of its own. A run is a
start followed by any number of steps, each with any sort, schedule and order of the elements in the parallel loop of the callback. `std::fma` with the time step is a function of the two other
arguments. Left out: generation of the initial data, options, printing, timing. The reductions for the printed integrals are sums in exact arithmetic. For the theorems in real numbers
the opening angle is so small that no node is accepted (C22), and kick and drift are exact.

### A client: number of collisions (`Model/CollBench.lean`)

The end of benchmark/benchmark_coll.cpp: AABBs of one size, the graph in either numbering, the sum of the lengths of the lists in a 64-bit unsigned integer, half of which is printed. Options, random
initial data and the printing of the tree are left out.

### A client: all particles moved (`Model/MoveBench.lean`)

benchmark/benchmark_move.cpp: construction with a deduced box, the accelerations of one particle by the tree and by the direct sum, an update through unordered iterators that changes all coordinates, the accelerations
again. The displacement is a function of the old coordinate; for the theorems in real numbers it adds a constant. Options, random initial data, timing and the printing of the tree are left out.

### Clients: one particle compared (`Model/AccBench.lean`)

benchmark/benchmark_acc.cpp, benchmark_pot.cpp and benchmark_acc_pot.cpp: checks of `nparts` and `idx`, construction from one vector that holds masses and coordinates, results of the tree and of the direct sum for one
particle, in both orders. Other options, random initial data, timing and the printing of the tree are left out.

### Initial data (`Model/Plummer.lean`)

`get_plummer_sphere` of benchmark/common.hpp as a relation of its outcomes: the distributions are sets of values, the functions of `<cmath>` are arbitrary, candidates with a radius that is not finite leave no trace, the parallel
version writes in any order. A run that never ends has no outcome. Allocation failure and the seeding of the generators are left out.

### Initial data of the tests (`Model/Uniform.lean`)

`get_uniform_particles` of test/test_utils.hpp with given values of `std::generate_canonical`, the formula of the GNU library for `std::uniform_real_distribution` (not contracted to a fused operation), a 64-bit size of the
vector, and the arguments of the constructor with the same box size. Allocation failure and the generator are left out.

## What is not modelled at all

Performance, memory layout, actual thread execution, allocation failures inside construction, the option parsing of the benchmarks and their generation of uniform data (`get_uniform_particles` of benchmark/common.hpp, which nothing calls), and the `igor` machinery beyond tags and types, the
ROCm and CUDA runtimes, `logging`.

## Where the code disagrees with the wanted property

Each is proved by a concrete witness evaluated by the kernel, and a `_partial` or conditional theorem states what does hold.

| | place | what happens | theorem |
|---|---|---|---|
| 1 | tree_coll.hpp:172 | `tree_coll_node_range` shifts a code by its full width at the deepest level: undefined; with x86 shifts a collision is missed | `C34_fails_leaf`, `C34_fails_size`, `C34_masked_misses` |
| 2 | tree.hpp:2828 | the traversal shifts by at least the width for sources deeper than the target: undefined | `C35_fails`, `C35_defined_iff` |
| 3 | tree.hpp:3023-3264 | CUDA split: with `float` and more than 2^24 particles, `n` may round up; a device gets a particle that does not exist, another a reversed range; in a debug build an assertion fails | `C29_fails_round`, `C72_split_fails` |
| 4 | tree.hpp:1552-1724 | an lvalue vector of masses is moved from if all coordinates are rvalue vectors | `C42_fails` |
| 5 | tree.hpp:2009-2793 | padding lanes change results: masses of both signs, or single precision with the fast inverse root and very small theta (NaN) | `C24_mixed_fails`, `C24_nan_fails` |
| 6 | tree.hpp:3023-3264 | a split whose sum overflows converts a NaN to an integer | `C29_fails_nan` |
| 7 | igor.hpp | the same keyword twice with different value types is not detected | `C50_fails` |
| 8 | tree.hpp:381-429 | in IEEE arithmetic coordinates inside the box but very near its end are rejected | `C09_ieee_fails` |
| 9 | tree.hpp:1278-1319 | deduction of the box fails if all coordinates are zero, and may fail for extremely small or large ones | `C10_origin_fails`, `C10_overflow_fails` |
| 10 | tree.hpp:3782-3805 | `update_masses_*` does not renew the ROCm views: after a computation on the accelerator it goes on with the old masses and node properties | `C70_stale_fails` |
| 11 | tree.hpp:381-429, 1858-1859 | without fused multiply-add, coordinates slightly outside of the box are accepted (`double`, box 3, x = -(1.5 + 2^-52)); in a debug build the destructor then ends the program | `C09_outside_fails`, `C72_dtor_fails` |
| 12 | rakau_cuda.cu:360-365, tree.hpp:3213-3221 | with output through iterators that are no pointers, the temporary result arrays have `nparts - split_indices[0]` elements, but `nparts` are pinned: memory beyond their end is registered | `C73_bounds_fails` |
| 13 | rakau_cuda.cu:475-487 | `wait_destroy_streams` is `noexcept`, but `cuda_set_device` throws: if a device cannot be selected any more, the program is terminated instead of an exception thrown | `C73_terminate_fails` |
| 14 | rakau_cuda.cu:481-486, 514-519 | the results of kernel launches and of `cudaStreamSynchronize` are not checked: the function returns as if the results had been computed | `C73_silent_fails` |
| 15 | tree.hpp:1602, 1609, 1696 | `max_leaf_n`, `ncrit` and `nparts` given as floating-point numbers are truncated silently (2.5 becomes 2), and NaN is undefined behaviour | `C74_truncated_fails`, `C74_nan_fails` |
| 16 | libmorton/morton_common.h:27, morton2D.h:70-74, 102, 236-257, morton3D.h:258-283 | methods that rakau does not call: the decoding loops shift by the width of the code in their last round; early termination shifts too far for coordinates or codes with the highest bit; gcc's search for the first bit is wrong for 32-bit types; 32-bit masks are read with the wrong element size where `uint_fast32_t` has 64 bits; the generator of the decoding tables for 2 dimensions uses the faulty loop | `C75_loop_fails`, `C75_loopET_fails`, `C75_encode_ET_fails`, `C75_first_bit_fails`, `C75_decode_narrow_fails`, `C75_magic_fails`, `C75_tables_fails` |
| 17 | benchmark/benchmark_leapfrog.cpp:340 | the total energy that the benchmark prints is the kinetic energy plus twice the potential energy: the potentials of the tree are energies of the particle with all others, so their sum has every pair twice | `C78_energy_fails` |
| 18 | detail/tree_coll.hpp:46-74, 79-153 | collisions are missed if the size of an AABB is just below a size of cells: the rounded AABB can then reach over three cells per dimension at the level chosen from its size, and the search looks only at the cells of the vertices, not at those between them. Box 1, particle at 1/8 − 2⁻⁵⁴ in both dimensions, size pred(1/4), `double`, with or without FMA: a particle at 1/16 inside of the AABB is not found | `C80_fails` |
| 19 | benchmark/common.hpp:49-56 | `get_plummer_sphere`: for `n = 2⁶²` the size `n * 4u` of the vector wraps around to zero and the writes are out of bounds; for a size so small that `size / 2 - size / 100` is rounded to zero (2⁻¹⁰⁷⁴ in `double`) every candidate is rejected and the function never returns | `C86_fails_wrap`, `C86_fails_size` |
| 20 | src/rakau_rocm.cpp:126-131 | the kernel compares the particle index with the number of particles of the tree instead of the end of the range: for a range that ends earlier and is not a multiple of a wavefront long, threads past the range write beyond the views. The only call (tree.hpp:3074-3106) ends at the last particle, so this is latent | `C87_fails` |
| 21 | test/test_utils.hpp:53, tree.hpp:391, 1418 | data of the tests in their own box may be rejected by the constructor: size 10 (basic.cpp, zero_masses.cpp) with fused multiply-add if a random number is 0 (coordinate -5), size 117 without it for the largest random number. Sizes that are powers of two are safe | `C88_fails_fused`, `C88_fails_plain`, `C88_fails_wrap` |

Further observations, not properties: parameter checks reject theta whose square underflows and softening lengths whose square overflows (C28); a NaN
distance is accepted by the CPU's criterion but rejected by the device vote; `pad_coord` is computed, and its overflow reported, even without SIMD (C27);
`exact_*` with an index out of range is undefined except for the unordered functions on an empty tree, which return zeros (C89); an infinite mass would turn the device's self term into a NaN, but no tree contains one (C54).

## Properties

| id | what is modelled | how it is proved |
|----|------------------|------------------|
| C01 | state machine: construct, sync, update_*, copy/move/clear over any sort outcome | invariant by induction over `Reach` |
| C02 | `construct_impl`, `apply_isort`, ordered/unordered views | permutation algebra |
| C03 | callbacks as arbitrary programs; specification = plain table in user order | refinement by induction over histories |
| C04 | `sync` | permutation algebra |
| C05 | state machine and code function | invariant |
| C06 | byte-table encoders/decoders with the literal tables | tables checked completely, lifted by bit lemmas to all coordinates |
| C07 | node prefix and shift arithmetic | bits and digits |
| C08 | `disc_single_coord`, collision clamping | case analysis; monotonicity of rounding |
| C09 | same | exact: equivalence; IEEE: error analysis, false near the ends; what is accepted is below `b / 2` exactly (`C09_below`) and, with fused multiply-add, in the box exactly (`C09_fused`); without, `C09_outside_fails` |
| C10 | `determine_box_size` | any reduction tree; exact and IEEE bounds, false in two cases |
| C11–C13 | `build_tree_ser_impl`, `build_tree`, critical nodes | induction on the level |
| C14, C15 | `build_tree_par_impl` as pushes in any order, any sort outcome | equality with the serial build; uniqueness of sorted permutations |
| C16, C49 | `clz`, `tree_level`, `node_compare` against lexicographic order on paths | positional arithmetic |
| C17, C18 | `compute_node_properties`, any batch size | sums over lists, convexity |
| C19 | `get_node_centre`, `get_node_dim` | arithmetic on digits; in IEEE arithmetic the cube of each accepted coordinate and the computed centre with explicit rounding errors (`Proof/CellErr.lean`, `Proof/GeomErr.lean`) |
| C20, C52 | `tree_acc_pot` traversal with any acceptance function | induction over the preorder structure |
| C21 | acceptance criterion over lanes | decision logic with C20, rounding laws; `C21_ieee` states what an accepted node means in real numbers, up to `(d + 14) u` |
| C22 | traversal and kernels composed | C20 and values of kernels, theta small enough |
| C23 | batched self-interaction loops | loop invariants, bijection of pairs |
| C24 | padding lanes | geometry in exact arithmetic; IEEE witnesses; `C24_ieee_partial`: in IEEE arithmetic, for positive masses and data in range, bounds of the padding coordinate from below, of the stored centres and distances from above (`Proof/GeomErr.lean`); `C24_ieee_values_partial`: there, the results are bit by bit those without the operations on padding slots, as the mass zero turns them into sums with zero |
| C25, C26, C40 | self-interaction, direct sums, scaling by G, exact functions | algebra |
| C27, C53 | output through permutation iterators, any node order | permutation algebra with C13 |
| C28, C41 | parameter and constructor checks | decision logic |
| C29, C48 | split indices, distributed computation, offset outputs | order reasoning, rounding laws |
| C30 | device kernels with any vote groups | induction as C20; values as C22 |
| C31–C34 | `compute_cgraph_impl` | geometry on discretised coordinates; sort/unique lemmas |
| C35 | shift in `tree_acc_pot` | characterisation of definedness |
| C36, C37 | copy/move/clear/exception wrappers | decision logic on states |
| C38, C39 | `update_masses`, sync against construction | equality of rebuilt structures |
| C42, C50 | generic constructor, igor duplicate detection | decision logic on tags, types and categories |
| C43, C44 | checked additions, node counts | arithmetic, induction on the build |
| C45 | allocation sizes | arithmetic |
| C46 | Newton step of the inverse root, exact and with all roundings | algebra; relative errors of each operation, the difference `3 - x y²` has a small absolute error and is close to 2 |
| C47 | `pprint`, stream output | list reasoning |
| C51, C55 | error of potentials and accelerations through the tree, CPU and accelerators | monopole remainder with explicit constants (`Proof/Monopole.lean`), summed over the visits |
| C54, C56 | finiteness of all data, box size | invariants over `Reach` in any arithmetic |
| C57 | whole path from user arrays to user results over ℝ | composition of C02, C40, C41, C51, C54–C56 |
| C58 | results do not depend on input order, ties, history | `Alike`: equal code lists give equal trees; a permutation of positions that keeps codes keeps every node range |
| C59 | scaling of lengths and masses; vector width | as C58, with factors: node data, bounds and pulls are homogeneous |
| C60 | a smaller opening angle refines the traversal | simulation between two traversals of one depth-first tree; monotonicity of the acceptance check under rounding; false with masses of both signs and padding (`C60_mixed_fails`); padded nodes in IEEE arithmetic, for positive masses and data in range, by `C24_ieee_partial` (`C60_ieee_partial`) |
| C61 | rounding errors of the exact functions and of the tree are bounded | relative-error calculus `Near u k` (a factor between `(1-u)^k` and its inverse) for products, quotients, roots and sums of squares; `Summed` for sums with terms of both signs; folded over kernels, visits, padding and the scaling by `G` |
| C62 | which constructor calls compile, throw or read beyond the data | first argument of each keyword (`FirstArg`), characterisation of the fetch functions, `intArg_fits` |
| C63 | coincident particles without softening give NaN accelerations and non-finite potentials | equal coordinates give equal codes, hence the same critical node; the pair update gives NaN (`0 * inf`), and every later update keeps it |
| C64 | node masses and centres of mass are accurate in IEEE arithmetic | the vector and scalar loops of compute_node_properties as a tree of additions over a multiset of particles (`AddsUp`, `Accum`); `Near` for the masses, `Summed` for the products; then the rounded reciprocal and product (`com_near`). Infinite or negative masses, and data outside the range where sums neither overflow nor underflow, are excluded by hypothesis |
| C65 | the error of the tree code in IEEE arithmetic, against Newton's law in the reals | puts together C19 (cubes up to `4 u B`), C64 (stored centre of mass near the exact one), the acceptance check with its rounding errors (`accepted_dim`), the padding (`pad_near`), the multipole error with a small dipole (`monopole_error_at`) and the rounding of the kernels (C61); `Stand` adds up the bodies that stand for particles. Needs positive masses, distinct positions (`sep`) and `κ < 1` |
| C66 | accelerations and potentials computed together and separately | the whole computation commutes with forgetting one quantity (naturality of the loops over batches, `Proof/Quant.lean`); potentials of vector kernels differ in the last bit (`C66_vector_fails`), as `batch_batch_3d_pots` and `batch_batch_3d_accs_pots` order a product differently |
| C67 | output overloads | `Model/Overloads.lean`: one column per component, iterators with any difference type, vectors, initializer lists; the columns hold the components of the results of `accPot`, about which the other theorems are. What a throwing call has already written through narrow iterators is not stated. The unordered functions do not check that the difference type represents `n` (only the starts of the critical nodes), the ordered ones do |
| C68 | the error of accelerators in IEEE arithmetic | `dev_err`, `scale_err`: the kernels of the devices in the calculus of C61, a particle's own term vanishing (C30); votes give the bound of `passed_dim`; the bodies of a thread stand for all other particles (`Stand.devVisits`), so that `TreeIn.newton` applies as for C65; `C68_split` puts together C29, C65 and the threads. The device has the same format as the host, with or without fused multiply-add; square roots and quotients correctly rounded (fast or approximate device intrinsics are not covered) |
| C69 | bitwise reproducibility | distinct codes leave the sorts no choice: `same_view` gives equal codes, hence equal positions up to the renumbering, hence equal arrays, nodes and node properties in any arithmetic; the computations read nothing else. `C69_construct` gives the conditions for two constructions from permuted input. `C69_ties_fail` is a run in double precision where three particles share a cell: the masses are added in another order, and the acceleration of a distant particle differs |
| C70 | views of an accelerator | induction over all calls: every function that replaces buffers destroys the views before and creates them after, so that views exist iff an accelerator does, are bound to the tree's own buffers with its sizes (`C70_bound`), and are never created twice (`C70_assert`); `C70_too_large` says when the program ends. Partial: `C70_read_partial` and `C70_results_partial` need that masses are not updated after a computation on the accelerator, or that it shares the memory of the host; `C70_stale_fails` is a run without this |
| C71 | no data races, one result for all schedules | `Safe`/`Does`: a program with a footprint that nobody else writes to; closed under sequence, and under parallel composition if the footprints are separate (`Does.par`, `Does.pfor`). Every step of an execution keeps this (`Safe.exec`), so that no two pending accesses conflict and all executions end in the same memory. The footprints of the regions are separate since permutations are injective, critical nodes are disjoint, and the pieces of a merge follow each other. `C71_unique`: executions do come to an end, and the outcome is unique |
| C72 | assertions | the functions with assertions refine those without: each assertion is shown to hold from the invariants (`TInv`, `Good`, `Tiled`), so that the outcomes are exactly those of other builds (`C72_construct`, `C72_update`, `C72_masses`, `C72_cgraph`, `C72_split_rocm`). Partial: in the destructor the bounds of the coordinates can fail (`C72_dtor_fails`); they are the only ones (`C72_dtor_partial`), fail exactly for coordinates outside of the box (`C72_dtor_iff`), not in exact arithmetic (`C72_dtor_exact`) nor with fused multiply-add (`C72_dtor_fused`: `x * i` misses 1/2 by at least `u^2 / 2`) nor for deduced boxes (`C72_dtor_deduced`), and the upper bound never (`C72_dtor_upper`: ties go to even). With CUDA the order of the indices can fail (`C72_split_fails`), only there (`C72_split_partial`) and not under the conditions of C29 (`C72_split_cuda`) |
| C73 | CUDA host side | a Hoare logic for host code with resources (`Trip`): legality and absence of leftovers for arbitrary results of the calls, also after exceptions (`C73_cleanup`); returns exactly if no checked call failed (`C73_outcome_partial`); results, and the rest unchanged (`C73_results`); no conflicts between streams (`C73_streams`); host areas (`C73_bounds_partial`); arguments from the split (`C73_fits`). False in general: `C73_silent_fails`, `C73_terminate_fails` (only if a device cannot be selected: `C73_terminate_partial`), `C73_bounds_fails` |
| C74 | parameters of other arithmetic types | the set of values of a format and nearest values are specified without the rounding function (`Spec/Numbers.lean`); rounding is compared with every value of the format via the grid around the number (`grid_dom`), ties included; then case analysis of the casts and of the argument list |
| C75 | the other methods of libmorton | bit by bit: magic bits are sequences of moves of groups of bits (`Spread`, `Gather`, checked for one bit and lifted to all numbers by linearity), loops and tables by induction over their rounds; all encoders agree with the specification of interleaving (`C75_encode_partial`), all decoders invert it (`C75_decode_partial`), hence any encoder with any decoder (`C75_roundtrip`) and with rakau's own (`C75_same_code`); the generators reproduce the tables (`C75_tables`). Partial: finding 16 lists the cases that are undefined or wrong, each with a theorem for all inputs concerned |
| C76 | temporary vectors of the threads | Hoare triples for computations on the vectors of a thread (`Run`): the vectors are prepared with zeros and the data of the node, the rows of the temporary data are written by the acceptance check before they are read, and only the elements not used (padding, after a failed check) are arbitrary; each step equals the step on fresh buffers on the rows in use (`norm`, `Stored`); then induction over nodes (`C76_call`), calls (`C76_history`, `C76_memory`), and C27 for different schedules (`C76_schedules`) |
| C77 | updates and construction | `sync` and `construct_impl` run the same checks, codes, sort, build and node properties on the edited arrays, so each outcome of the one is an outcome of the other; an update of the masses is the construction that keeps the order of the particles; then C41 |
| C78 | leapfrog integration | invariant of the steps: velocities in tree order, accelerations those of the current tree; `last_perm` composes with the permutation of the tree (C04), so that in user order each step is kick-drift-kick; then C57/C22 give Newton's law, the third law gives momentum and angular momentum, C77 gives success of the updates; the printed energy is refuted by summing the pairs |
| C79 | interleavings of the tree builder | ownership logic `Sp`: a task owns the elements it has pushed, the counters it has created and a share of the increments of its parent's counter; each operation preserves the shares, parallel tasks own disjoint elements (no races, no overflow), and what remains after all tasks are done is a permutation of the pieces of C14 |
| C80 | collision graph in IEEE arithmetic | `cgraph_complete`: in any monotone arithmetic, if each AABB reaches over at most two cells per dimension (`TwoCells`) then overlapping computed segments share a leaf; `scaled_at` bounds the error of the scaled ends by 6 u, so a margin of 16 u b between size and cell size gives `TwoCells`; halvings of the box size are exact |
| C81 | number of collisions in the benchmark | the lists of C32 are free of duplicates, symmetric and without loops, so the sum of their lengths is twice the number of pairs (`reported_eq`); the numbering is a bijection (`numPairs_map`); C31 and C80 say which pairs have edges |
| C82 | total force, torque, energy | C57 bounds each particle, the exact totals vanish (`accel_total`, `torque_total`) or are twice the binding energy (`energy_total`); C78's description of a run with accelerations within the bound, summed over the steps; `C82_ieee`: the same with C65 in place of C57; `C82_fails` is a concrete tree whose total force is not zero |
| C83 | all particles moved | `move_run`: what the callback does to the table, as for C78; C77 and C04 for the new tree and its ordered view; C27 turns the results of C57 into those of the unordered function at `inv_perm()[idx]`; distances do not change (`accel_moved`); `C83_fails` is a concrete run whose tree lines differ |
| C84 | exchanged and reversed axes | no order of nodes is kept, so nodes are matched by their cells: `Match` relates two trees whose particles correspond by a permutation that preserves common ancestors at every level; `vis_iff` characterises the nodes visited by a traversal without its order (no accepted ancestor), so visited nodes correspond; `mirror_div`: off the faces of the grid a reversed coordinate has the opposite cell; `C84_fails` shows the condition is needed |
| C85 | acc and pot benchmarks | `accPot_cases`: the checks before the parallel loop fail in both orders alike; otherwise C27 and C40 relate the results at `inv_perm()[idx]`; C57 for the values |
| C86 | initial data of the benchmarks | `Placed`: the writes of a run are masses and, for each particle, the three coordinates of one accepted candidate; `putAll_spec`: after writes in any order every place holds a value written to it; `mul_small`: products with sines and cosines stay finite |
| C87 | ROCm on ranges | for a range up to the last particle, or of a multiple of `bs` particles, the tiles are the blocks of `Gpu.launch` (`launchRocm_eq`), so `launch_eq` applies; otherwise the last tile has the local index `e - b`, whose write is beyond the view |
| C88 | data of the tests | `u ≤ 1 - unit`, so `near (u s) < s` (half a spacing below, or a finer grid if `s` is a power of two), and the subtraction of `s / 2` is exact in the upper half; for powers of two the inverse is exact and the scaled coordinates lie in `[-1/2, 1/2 - unit]` |
| C89 | indices of the exact functions | the first step of the loop reads the particle beyond the end, `ptAt_beyond`; C40 for the others |

## Axioms per theorem

Generated with `#print axioms` for every theorem in `MANIFEST.json`.

<!-- axioms begin -->
* no axioms: `C36_copy`.
* `propext`: `C04_construct`, `C04_masses`, `C42_fails`, `C47_stream`, `C50_fails`, `C75_magic_fails`, `C75_tables`, `C79_conflict`.
* `Quot.sound`, `propext`: `C02_arguments`, `C28_arguments`, `C36_empty`, `C36_move`, `C36_move_assign`, `C42_unchanged_partial`, `C43_atomic`, `C43_atomic_count`, `C43_checked_uinc`, `C43_it_diff_check`, `C43_sequence`, `C45_bytes`, `C47_digits`, `C48_overflow`, `C48_tiling`, `C66_accs`, `C66_devices`, `C66_exact`, `C66_pots`, `C67_ilist`, `C70_computed`, `C70_too_large`, `C73_bounds_fails`, `C73_bounds_partial`, `C73_outcome_partial`, `C73_silent_fails`, `C73_streams`, `C73_terminate_fails`, `C73_terminate_partial`, `C75_first_bit_fails`, `C86_exists`, `C88_fails_wrap`.
* `Classical.choice`, `Quot.sound`, `propext`: `C01_inverse`, `C02_views`, `C03_history`, `C03_particles`, `C04_update`, `C05_codes`, `C06_decode`, `C06_encode`, `C06_injective`, `C07_node_cube`, `C07_prefix_cell`, `C08_clamp`, `C08_clamp_ieee`, `C08_clamp_monotone`, `C08_interval`, `C08_monotone`, `C08_monotone_ieee`, `C08_nonfinite`, `C08_range`, `C09_below`, `C09_exact_partial`, `C09_fused`, `C09_ieee_fails`, `C09_ieee_partial`, `C09_outside_fails`, `C10_exact_partial`, `C10_ieee_partial`, `C10_nonfinite`, `C10_origin_fails`, `C10_overflow_fails`, `C10_schedule`, `C11_children`, `C11_depth_first`, `C12_leaf_iff`, `C12_one_leaf`, `C13_critical_nodes`, `C13_tiling`, `C14_deterministic`, `C14_equals_serial`, `C15_construct`, `C15_input_order`, `C16_cbits_maximal`, `C16_codes_are_paths`, `C16_node_compare`, `C16_strict_total_order`, `C16_tree_level`, `C17_children`, `C17_exact`, `C18_com_inside`, `C19_cube`, `C19_disjoint`, `C19_ieee`, `C19_ieee_centre`, `C19_ieee_spread`, `C19_particles`, `C19_size`, `C19_subdivision`, `C20_each_once`, `C20_sources`, `C21_accepted`, `C21_exact`, `C21_ieee`, `C22_direct_sum`, `C22_small_theta`, `C23_pairs`, `C23_room_needed`, `C24_acceptance`, `C24_ieee_partial`, `C24_ieee_values_partial`, `C24_mixed_fails`, `C24_nan_fails`, `C24_values`, `C25_direct`, `C25_node`, `C26_scale`, `C27_outputs`, `C28_accepted`, `C28_check`, `C28_exact`, `C28_exact_functions`, `C28_rejected`, `C28_split`, `C28_split_rejected`, `C29_double`, `C29_fails_nan`, `C29_fails_round`, `C29_float`, `C29_none`, `C29_partial`, `C29_proportions`, `C29_rejects`, `C29_results`, `C29_rocm`, `C30_direct`, `C30_once`, `C30_self`, `C30_values`, `C31_exact`, `C31_repaired`, `C31_sound`, `C32_structure`, `C33_schedule`, `C33_total`, `C33_unique`, `C34_fails_leaf`, `C34_fails_size`, `C34_iff`, `C34_invalid_size`, `C34_masked_misses`, `C34_partial`, `C34_repaired`, `C35_defined_iff`, `C35_fails`, `C35_partial`, `C35_undefined`, `C36_copy_assign`, `C37_construct_total`, `C37_masses`, `C37_particles`, `C37_total`, `C38_masses`, `C39_environment`, `C39_identical`, `C39_rebuild`, `C40_each_once`, `C40_ordered`, `C40_value`, `C41_exact`, `C41_invalid`, `C41_outcome`, `C41_reasons`, `C44_no_overflow`, `C44_outcome_exists`, `C45_alignment`, `C46_accuracy`, `C46_float`, `C46_newton`, `C46_rounded`, `C47_pprint`, `C48_outputs`, `C49_clz_paths`, `C50_detected_partial`, `C50_uniform_partial`, `C51_gpu`, `C51_node`, `C51_real`, `C51_total`, `C52_traversal`, `C53_writes`, `C54_data`, `C54_finite`, `C55_node`, `C56_box`, `C57_end_to_end`, `C57_exact`, `C57_user`, `C58_construct`, `C58_order`, `C59_construct`, `C59_scale`, `C60_batches_partial`, `C60_exact_partial`, `C60_ieee_partial`, `C60_mixed_fails`, `C61_exact`, `C61_tree`, `C62_accepted`, `C62_outcome`, `C63_exact`, `C63_tree`, `C64_inside`, `C64_node`, `C65_tree`, `C66_pots_exact`, `C66_vector_fails`, `C67_iterators`, `C67_narrow`, `C67_shape`, `C67_vectors`, `C67_vectors_throw`, `C68_kernel`, `C68_newton`, `C68_split`, `C69_construct`, `C69_devices`, `C69_exact`, `C69_graph`, `C69_graph_unordered`, `C69_ordered`, `C69_state`, `C69_ties_fail`, `C69_unordered`, `C70_assert`, `C70_bound`, `C70_read_partial`, `C70_results_partial`, `C70_stale_fails`, `C70_terminate`, `C71_construct`, `C71_encode`, `C71_forces`, `C71_input`, `C71_iota`, `C71_merge`, `C71_props`, `C71_sync`, `C71_unique`, `C72_cgraph`, `C72_construct`, `C72_dtor_deduced`, `C72_dtor_exact`, `C72_dtor_fails`, `C72_dtor_fused`, `C72_dtor_iff`, `C72_dtor_partial`, `C72_dtor_upper`, `C72_masses`, `C72_split_cuda`, `C72_split_fails`, `C72_split_partial`, `C72_split_rocm`, `C72_update`, `C73_cleanup`, `C73_fits`, `C73_results`, `C74_accpot`, `C74_compiles`, `C74_ctor`, `C74_integer_partial`, `C74_monotone`, `C74_nan_fails`, `C74_nearest`, `C74_outcome`, `C74_size`, `C74_throws`, `C74_truncated_fails`, `C74_widening`, `C75_decode_narrow_fails`, `C75_decode_partial`, `C75_encode_ET_fails`, `C75_encode_partial`, `C75_first_bit_partial`, `C75_loopET_fails`, `C75_loop_fails`, `C75_roundtrip`, `C75_same_code`, `C75_tables_fails`, `C76_call`, `C76_history`, `C76_memory`, `C76_schedules`, `C77_construct`, `C77_exact`, `C77_masses`, `C77_outcome`, `C78_angular`, `C78_defined`, `C78_energy_fails`, `C78_energy_partial`, `C78_forever`, `C78_momentum`, `C78_motion`, `C78_newton`, `C78_reversible`, `C78_run`, `C79_ends`, `C79_exists`, `C79_no_error`, `C79_no_race`, `C79_result`, `C79_serial`, `C80_fails`, `C80_partial`, `C81_edges`, `C81_exact`, `C81_ieee`, `C81_zero`, `C82_drift`, `C82_fails`, `C82_ieee`, `C82_motion`, `C82_total`, `C83_defined`, `C83_fails`, `C83_move`, `C84_axes`, `C84_construct`, `C84_fails`, `C84_tree`, `C84_widths`, `C85_defined`, `C85_ordered`, `C85_value`, `C86_accept`, `C86_data_partial`, `C86_fails_size`, `C86_fails_wrap`, `C87_fails`, `C87_partial`, `C88_accept_partial`, `C88_data`, `C88_exact`, `C88_fails_fused`, `C88_fails_plain`, `C88_inner`, `span32`, `span64`, `C89_defined`, `C89_empty`, `C89_parameters`.
<!-- axioms end -->
