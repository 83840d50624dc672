# Formal model of jacanchaplais/graphicle in Lean 4 — design

`tools/design.py` assembles this file: the prose is `tools/design_head.md`, the table of properties comes from
`properties.jsonl`, `MANIFEST.json` and the sources.  The first version, a plan written before the proofs, is in the
first commits of the repository; nothing planned was dropped.

## 1. Layout

* `lean/Verif/Model/*.lean` — the model: functions that mirror `/repo/graphicle` function by function and branch by
  branch, with exceptions as values.  Every definition cites the file and lines it models; simplifications are said
  there.  `COVERAGE.md` (generated) lists every definition with its citation.
* `lean/Verif/Spec/*.lean` — small specifications in which the properties are stated (reachability, nearest ancestor,
  axis-aligned thrust, ordered maps, two-user memory games, …).
* `lean/Verif/Lemmas/*.lean` — helper lemmas.
* `lean/Verif/Props/*.lean` — the property theorems `Cnn_…`.  Beside each one `example`s show concrete non-trivial
  cases that meet its hypotheses.
* `AXIOMS.txt` (generated) — the axioms each property theorem depends on.
* `seeded/` — wrong programs the theorems were tested against, see section 6.
* `tools/` — generators of `properties.jsonl`, `MANIFEST.json`, `lean/Verif.lean`, `AXIOMS.txt`, `COVERAGE.md`, this
  file, and the mutation runner.

## 2. Trusted base

* Lean's kernel (4.33.0) and the statements of the definitions used from Lean core and Mathlib (real numbers, complex
  argument, `HasDerivAt`, hyperbolic functions, …).
* Axioms: only `propext`, `Quot.sound` and `Classical.choice`; `AXIOMS.txt` gives them for each theorem.  No axiom is
  declared, nothing is proved by compiled code, there is no hole.
* The faithfulness of the model: the code cannot be run here, so the only tie between model and code is the reading of
  the cited lines, and of numpy/scipy semantics as listed in section 4.

## 3. Conventions

* numpy 1-D arrays are `List`s, 2-D arrays lists of rows or (for constructors) a shape with flat data.
  Exceptions are values of `Py α = Except PyErr α`, with the Python exception class.
* Python dicts are association lists with unique keys in insertion order.
* Integers are unbounded, except where a property depends on the width: `abs` of int16/int32 codes wraps at the
  minimum (C22, C23), int16/int32 casts in LHE events (C30).
* Floating point: rounding is not modelled.  Formulas are over `ℝ`; where the code can meet nan or infinities (empty
  clusters, particles at rest or along the beam, equal transverse momenta), values live in `Fl = ℝ + {±inf, nan}`.
* In-place mutation: value-level models return the new value; the properties about aliasing and caching (C13, C14,
  C30, C59, C85, C98, C99) have their own state machines (object heap, cached attributes, buffers with views) and are
  proved for all histories.
* Parallel loops (numba `prange`) are modelled as a list of writes executed in an arbitrary order; the theorems
  quantify over all orders (C57, C66, C96).
* Expectations that the code does not meet: the property is then stated as what the code does, exactly, and the
  expectation is refuted by a theorem `Cnn_false` (or with a telling name) on a concrete witness.  Section 5 lists
  these findings.

## 4. What is modelled, and what is not

Modelled: all of `select.py`, `calculate.py`, `matrix.py`, `transform.py`; in `data.py` the constructors and
conversions, subscripts, comparisons, iteration, `data` setters, ufunc protocol, masks and mask groups, PDG masks and
`from_name`, kinematics and their caches, `shift_*`, `delta_R`, status masks, composites, LHE import, serialization,
adjacency lists with their caches, the stored `agg_op` strings, the lines of printed mask trees, structured masks and
`to_dict`, the looked-up PDG properties, and the head/tail logic of the printed tables.

Not modelled:

* `__array_interface__`, the layout done by `tabulate` and `rich` and numpy's text of an array, docstrings,
  deprecation warnings; the abstract classes and type aliases in `base.py`.
* floating-point rounding (except in C118, C123, C127, C136, C144, C146, C150, C151, C153, C154, C156 and C161, where every operation rounds), the sign of zero (except in C142), infinite or nan components of momenta (except in C145), overflow to inf (except in C127, C151 and C153), float parsing; integer overflow other than the cases above and the constructors' casts (C121);
* time, memory use, the real thread scheduler (only the order of the loop's writes and the thread-count bookkeeping; all interleavings of reads in C157 and C158);
* the byte layout of structured arrays (records are tuples of named fields).

Contracts assumed of other libraries, always as parameters or as explicit algorithms in the model:

| library | what is assumed |
|---|---|
| numpy | subscripts (masks, integer lists, slices with negative steps), `unique`, `isin`, `argmin` (first, nan first), `argsort` (any sorting permutation), `argpartition` (any admissible result), broadcasting of equal lengths and of length one, which subscripts are views |
| numpy arithmetic | each operation is accurate to a relative unit (C118 and the other rounding properties); C161 proves this contract of rounding to the nearest number of p bits, ties to even, exponents unbounded above; that the machine's `+ - * / sqrt` round so, and that libm's functions are within one unit in the last place, is assumed |
| scipy.sparse | COO construction and its errors, duplicate summation, `breadth_first_tree` (modelled as the queue algorithm itself) |
| scipy.optimize | `linear_sum_assignment`: any optimal assignment; `minimize`: any adaptive strategy which returns the best of the in-bounds points it evaluated |
| pandas | the pivot and join in `find_vertex`, by their result |
| fastjet | `fastjet_clusters`: any partition of the particles into jets with momenta (C56); sequential recombination with the generalised-kt distances, momenta added, pairs merged only if nearer than the radius, ties resolved in any way, exact arithmetic (C159) |
| numba | the order of the iterations of `prange` is arbitrary; the thread count is a global variable; `np.sum(a, dtype=np.float32)` adds one element after the other in single precision (C154; up to 2^24 links the order does not matter) |
| mcpid | the PDG table is an arbitrary table |
| random numbers | the drawn numbers are parameters |
| functools | `cached_property`: look, (lock, look again,) compute, store; the lock is reentrant and one per attribute and class, shared by all objects (C157: Python before 3.12; without locks otherwise) |
| warnings | `catch_warnings`: entry puts a copy of the filters in place, exit puts back the list found on entry; one list for all threads (C158) |

## 5. Findings: expectations the code does not meet

* **Masks.** `agg_op` is not serialized (C06_false). `recursive_drop(inplace=True)` also changes nested groups shared
  with other groups (C14). `any_overlap` always raises `AttributeError` on a `MaskGroup` (C53_group).
  `MaskGroup == MaskArray` and `!=` between the two raise `TypeError`, `MaskArray == MaskGroup` does not (C02_false).
  Any string is accepted as `agg_op` and a misspelt one only raises when the aggregate is read; a list of integers as
  subscript of a group is a `KeyError` (C100).
* **Arrays.** Structured colours are read by position of their fields (C18_false); `color[i]` has length two
  (C19_false), so `graph[i]` misaligns colours, and it cannot be iterated over (C94_flat), so that
  `print(graph[i])` and `graph[i].serialize()` raise (C128_color); iterating over an empty event never ends
  (C128_endless_false); `momenta.data = [e,x,y,z]`
  gives length four (C95_momentum). Negative targets never match in `PdgArray.mask` without `sign_sensitive`
  (C22_false); the default range of `in_range` rejects -32768 (C23_false). Codes out of bounds wrap silently when an
  array is constructed (C121_false).
* **Comparisons.** Comparing momenta, colours or edges with an ndarray, and two adjacency lists or events with each
  other, raises `ValueError` (C93). `==` on particle sets ignores the contents (C28_false).
* **ufuncs.** Boolean functions on momenta/colours/edges raise (C88_columns_false); `axis=-1` reductions are refused
  or taken for a momentum (C88_axis_false); mixing two classes fails (C88_mixed_false).
* **Aliasing and caches.** `from_lhe_event` overwrites an int16 status array of the caller (C30_false). Cached
  kinematics are stale after writes (C85_false), so are roots, leaves, matrix and descendants of an adjacency list
  (C98_false). So an array is not at `delta_R` zero from its copy (C124_copy_false), and with fewer records than stored
  rapidities the kernels read past the end (C124_overrun_false). The leaves of a flattened group are the tree's own masks, its aggregates are snapshots (C122).
  Contiguous slices share memory with the original, all other subscripts do not (C99_slice, C99_false).
  `x op= y` shows in everything sharing memory with `x`, but not in attributes cached there (C130_stale_false), and with
  an array of another class it raises after having overwritten `x` (C130_foreign_false). `mask &= group` raises while
  `mask & group` does not, and with a list it is the other way round (C130_mask_false).
  `arg_closest` leaves the candidates' `rapidity` overwritten by their pt when it fails (C59_false, C59_failure).
* **Events.** `copy` drops edge weights (C27_false). An event with edges but no particle data prints no records
  (C86_false).
* **Graphs.** `from_matrix` loses isolated nodes (C36_false), and with `weighted` and `self_loop` the weights on the
  diagonal (C111_false). `matrix` raises `IndexError` for too few weights and
  ignores surplus ones (C98_matrix_meaning).
* **Mapping methods of groups.** `popitem` takes the first entry, `setdefault` returns the raw default and not the mask
  stored, and `mask in group.values()` is true for every mask of equal length and raises for other lengths (C107_false).
  `group[name] = {...}` stores a mask of length one, where `MaskGroup({name: {...}})` makes a nested group (C135_false).
* **Selections.** The descendants of a leaf vertex are all edges into it, so nesting fails for leaves (C106_false).
  `hard_descendants` with targets marks the wrong parton records (C45_false). Hard partons not related
  to the others are dropped from `hierarchy` (C49_false); its leaf masks, hence `latent`, can be all `False`
  (C50_false). `color_singlets` misaligns names when a leaf has no or several outgoing partons (C54_misaligned);
  `clusters` raises there (C60_no_parton) and `TypeError` on an empty hierarchy. `centroid_prune` keeps nothing when
  transverse momenta balance (C55_balanced). Rounding decides which particles at the edge of the radius are kept (C156_false). Particles nearer to each other than `radius` need not share a mask of `fastjet_clusters` (C159_false). A parton at rest claims every hadron in `partition_descendants`
  (C96_rest), hadrons behind two hadronisation vertices go by the one with the greater id (C112_false_ids), and a final
  particle that enters a hadronisation vertex makes the outcome depend on what was assigned before (C51_false).
  A leaf of `hierarchy` depends on which record of the parton's descendants comes first (C104_hierarchy_false), and its
  leaves count the hadrons of a colour singlet once per parton until `partition_descendants` (C125_false).
  Boosting an event along the beam can move a hadron to another parton, if a parton has mass
  (C129_partition_boost_false). The default distance is infrared safe only up to hadrons exactly along the
  soft parton and partons exactly at rest (C147_soft_false), and no negative exponent is collinear safe
  (C147_collinear_false).
- `split_momentum`, `split_hardest`: `angle` is the displacement of the first child only for an axis perpendicular to
  the parent (C149_angle), which the default axis is not (C149_default_false); the second child of a massless particle
  always has a negative mass (C149_massless_false). Conservation holds only up to rounding (C150_conserved, C150_false).
- `arg_closest`: the documentation says that the costs are the distances and that a candidate nearest to two focus
  elements goes to the nearer one. The first fails because the transverse momenta enter the cost
  (C148_distance_false), the second even when they cancel, because an assignment is optimal in total
  (C148_conflict_false).
  With several optimal assignments, the order of the clusters decides which one `arg_closest` returns (C131_false).
  With `sign_sensitive=0` or `numpy.False_`, `hard_descendants` silently leaves out antiparticles, as the flag is tested by
  truth value in one place and by `is False` in another (C132_no_antiparticles, C132_false).
  `monte_carlo_tag`: a blacklist with an empty whitelist acts as a whitelist (C58_false); no partons is
  `TypeError` (C58_no_partons).
* **Kinematics.** `shift_eta` shifts the rapidity, not the pseudorapidity, of massive systems (C63_false), rejects array
  shifts (C63_array_false), and warns with `max_corrections=1` although it converged (C64_false). `arg_closest` with
  one candidate or equal transverse momenta raises `ZeroDivisionError` (C57_equal_pt). `from_spherical_uniform` only
  draws the upper hemisphere (C84_false). `weighted_centroid` is wrong across the wrap of the azimuth (C75_false) and
  nan with a particle along the beam (C75_beam). `combined_mass` with a vector of per-particle
  weights raises, or weights the components if there are four particles (C108_false). Rounding alone can give a massless
  particle negative mass and a particle with transverse momentum infinite pseudorapidity (C118_mass_false,
  C118_eta_false), lets the combined mass depend on the order of the particles (C123_order_false), and can put
  particles of different azimuth at distance zero (C136_false), and a boost that is large for the precision can give a
  massless particle negative energy (C144_false). The signs of zeros matter: `shift_phi` can change the
  distance to a particle without transverse momentum from 0 to π, and momenta equal as numbers can be at distance π or at
  infinite distance (C142_false). After `shift_eta(experimental=True)` the rapidity is infinite, not nan as documented, so
  that `delta_R(pseudo=False)` quietly gives a difference in azimuth or infinity (C145_false, C145_distance).
  An overflow in `combined_mass` is answered with `0.0` like a negative squared mass: a particle at rest with a mass
  whose square is out of range has combined mass 0 (C127_false). `mass` and `mass_t` do not overflow there (C151_mass,
  C151_mass_t). A particle of subnormal momentum makes the thrust of its event nan for every axis (C151_thrust_nan,
  C151_false).
* An event is not closed: assigning `particles.pdg` changes every event made of the particle set, and no length is checked
  (C152_assign, C152_false). `event[start:stop]` shares memory with the event, `event[mask]` does not (C152_slice,
  C152_subscript).
  `jaccard_distance` is nan as soon as one weight is infinite or nan, also where neither mask is set (C153_weights), and 0
  or nan when sums of weights overflow (C153_false). `cluster_coeff_distbn` counts links in single precision, which stops at
  2^24: the coefficients of particles with more than 4096 mutually linked neighbours are too small (C154_false).
* **Threads.** `combined_mass` and the first read of `eta` change the warning filters of the whole process: beside another thread,
  `combined_mass` can give nan for 0, `eta` can raise `RuntimeWarning`, and after two overlapping calls the filters can
  stay changed for good, so that `phi` no longer warns, or raises (C158_false). Without the locks of Python before 3.12 a cached
  quantity may be computed more than once, harmlessly (C157_false). Rapidity and azimuth depend on the unit of the momenta through the
  absolute zero tolerance: near it a finite rapidity becomes infinite and an azimuth nan when the unit is changed (C160_false).
* **Event shapes.** The inclination component of the spherocity gradient is wrong (C70_false); a particle at rest aborts
  the event shapes (C76_false), so that a particle of vanishing momentum does what no soft particle does (C113_false);
  spherocity 0 is never returned (C97_pencil), and whether spherocity raises depends on the orientation of the event
  (C115_false). The initial guess is documented as uniform over the sphere; it is uniform in two angles and prefers the
  beam (C141_false). Rounding can give a thrust above one or a negative C-parameter (C146_false), and decides whether
  spherocity raises for an axis along a particle (C146_spherocity_false). In double precision the mass of a particle at
  rest with energy 2 is 2 + 2^-51, eta off the beam can be infinite, and sums depend on the order (C161_false_*).
  A mirror shows the azimuth of `weighted_centroid` to be no centroid (C162_false) and the gradient of `spherocity` to be
  wrong (C162_false_gradient). Clustering coefficients can fall when the radius grows (C163_false), and a lower
  `eta_cut` can add a jet when `top_k` is given (C163_false_top_k). Pruning twice around the particles' own centre
  drops more than pruning once (C164_false_prune). The jets depend discontinuously on the momenta at a cut (C166_false_cut) and at
  the radius (C166_false_radius), and on the order of the search with ties (C165_false); away from these, and from pseudojets along the beam, they do not mind a little noise (C166_noise).
* **Matrices and transforms.** `knn_adj` has the opposite orientation to its documentation (C78_false), refuses to
  give all n−1 neighbours, and gives coincident particles k+1 (C78_ties_false). `self_loop=0` or `numpy.False_` adds
  self-loops (C77_flags_false). `_axis_to_angles` takes the elevation for the inclination, so `soft_hard_axis` is wrong
  (C81_false, C81_softhard_false). `split_momentum` of an empty array is `IndexError`, and `z` is not checked.
  `jaccard_distance` of masks of different lengths compares the common prefix (C72_truncates).

## 6. Testing the theorems against wrong programs

`tools/mutate.py` copies a built tree outside `/verif`, applies one edit to a model definition (a wrong boundary, a
swapped argument, a dropped case or update), rebuilds all modules that depend on it, and records which theorems no
longer prove; a failing helper lemma is replaced by a hole (in the scratch copy only) and the build goes on, and a property theorem
counts as failed if its own proof breaks or it rests on a hole.  Every attempt is a line of `seeded/LOG.jsonl`;
survivors led to tightened theorems (`seeded/tightened.json`) or are equivalent programs, and are marked so.

## 7. Properties

Proof method in general: masks, tables, conversions — list induction and case analysis; mask groups — structural
induction over trees, refinement to ordered maps over histories; aliasing and caches — invariants over all histories;
graphs — loop invariant of the breadth-first queue, reflexive-transitive closure; hierarchy and partition — induction
over in-place updates and trees; kinematics and event shapes — real analysis; parallel loops — commuting writes.

| property | status | theorems in | model | what is modelled and proved |
|---|---|---|---|---|
| C01 Mask algebra is pointwise | proved (5) | MaskA | Mask | for all masks of all lengths (including empty and mismatched lengths).  |
| C02 Mask == and != are elementwise and complementary | proved (4) | MaskA | Mask | for all pairs of masks / mask groups / boolean arrays. Exact for all masks and operands (C02_eq_ne, C02_foreign). That any two masks of equal length can be compared is refuted (C02_false): MaskGroup == MaskArray and != between the two raise TypeError. |
| C03 Aggregate of a nested MaskGroup | proved (9) | MaskA | Mask | for all nested groups of any depth, width and mask length, all positions.  |
| C04 MaskGroup serialization round-trips | proved (3) | MaskB | Mask | for all nested groups with string keys, any depth.  |
| C05 equal_to is structural equality | proved (4) | MaskB | Mask | for all pairs / triples of nested groups.  |
| C06 Serialization and aggregates | proved (4) | MaskB | Mask | for all nested groups. Exact: C06_restored, for every tree. agg_op is not serialized, so the round-trip expectation is refuted (C06_false). |
| C07 recursive_drop removes exactly the key | proved (4) | MaskB | Mask | for all nested groups, all keys.  |
| C08 flatten('rise') lists every named mask | proved (3) | MaskC | Mask | for all nested groups.  |
| C09 flatten('agg') aggregates the top level only | proved (1) | MaskC | Mask | for all nested groups.  |
| C10 leaf_masks returns exactly the leaves | proved (3) | MaskC | Mask | for all nested groups.  |
| C11 Slicing a group distributes over aggregation | proved (2) | MaskC | Mask | for all nested groups whose leaves have one length, all keys.  |
| C12 MaskGroup behaves as an insertion-ordered map | proved (2) | MaskC | Mask | for all histories of assignments and deletions.  |
| C13 copy() isolates | proved (3) | Heap | Heap, Mask | for all object graphs without sharing cycles, all later update histories.  |
| C14 recursive_drop(inplace=False) leaves the original alone | proved (4) | Heap | Heap, Mask | for all object graphs and keys.  |
| C15 Array constructors accept exactly the right shapes | proved (3) | Convert | Convert | for all input shapes and contents.  |
| C16 Structured momenta are read by field name | proved (4) | Convert, Fields | Convert, Mask | for all field orders and alias choices, all row contents.  |
| C17 Structured edges are read by field name | proved (3) | Convert, Fields | Convert, Mask | for all field orders and aliases, all edge lists.  |
| C18 Structured colors are read by position of their fields | proved (4) | Convert, Fields | Convert, Mask | for all field orders, all rows. Exact: C18_columns, C18_swapped. Reading by name is refuted (C18_false). |
| C19 An integer subscript selects one record | proved (3) | Convert | Convert | for all arrays and integers. Proved for every class; length 2 for ColorArray (C19_color), so length 1 in general is refuted (C19_false). |
| C20 Subscripts gather records | proved (6) | Index | Basic | for all arrays, masks, integer lists and slices.  |
| C21 Successive masks compose | proved (2) | Index | Basic | for all arrays and masks.  |
| C22 PdgArray.mask selects or removes the target codes | proved (5) | Pdg | Mask, Pdg | for all code arrays, all targets, all flags. Exact for all codes and targets, with 32-bit wrap-around of abs at -2^31 (C22_magnitude). Negative targets never match without sign_sensitive (C22_false). |
| C23 StatusArray.in_range is an inclusive range test | proved (4) | Pdg | Mask, Pdg | for all status arrays of 16-bit codes and all bounds. Exact for all 16-bit statuses; the default range rejects exactly -32768 (C23_default, C23_false). |
| C24 hard_mask categorises the hard process | proved (3) | Pdg | Mask, Pdg | for all status arrays.  |
| C25 Subscripting an event keeps its columns aligned | proved (3) | Composite | Composite, Convert, Mask | for all events with any subset of attributes present, all keys.  |
| C26 Length and truth of an event | proved (4) | Composite | Composite, Convert, Mask | for all events.  |
| C27 copy() reproduces an event but for edge weights | proved (3) | Composite | Composite, Convert, Mask | for all events. Exact: everything but weights is copied (C27_copy, C27_parts); weights are lost (C27_false). |
| C28 What == on particle sets decides | proved (3) | Composite | Composite, Convert, Mask | for all pairs of particle sets. Exact decision procedure for all pairs (C28_decides); independence from the contents (C28_contents); comparison of contents refuted (C28_false). |
| C29 LHE status codes are translated simultaneously | proved (2) | Composite | Composite, Convert, Mask | for all LHE records.  |
| C30 Effect of from_lhe_event on the event | proved (2) | Composite | Composite, Convert, Mask | for all LHE records and dtypes. Complete effect on the caller's arrays (C30_frame); an int16 status array is rewritten in place (C30_false). |
| C31 from_event takes every attribute the event offers | proved (2) | Composite | Composite, Convert, Mask | for all subsets of offered attributes.  |
| C32 Serialized events can be restored | proved (2) | Composite | Composite, Convert, Mask | for all events.  |
| C33 nodes lists every vertex once, by magnitude | proved (3) | Adj, Any | Adj, Composite, Convert, Descend, Hard, Mask, Partition, Pdg | for all edge lists, including ids of both signs.  |
| C34 roots and leaves are characterised by degrees | proved (4) | Adj | Adj, Composite, Convert, Mask, Pdg | for all non-empty edge lists.  |
| C35 adj.matrix counts edges | proved (2) | Adj | Adj, Composite, Convert, Mask, Pdg | for all non-empty edge lists with repeated edges and arbitrary ids.  |
| C36 from_matrix inverts matrix, up to isolated nodes | proved (6) | Adj | Adj, Composite, Convert, Mask, Pdg | for all square matrices. Edges, order and self-loops for all matrices; round trip characterised for all square 0/1 matrices (C36_roundtrip, C36_roundtrip_iff); isolated nodes are lost (C36_false). |
| C37 Relabelling preserves the graph | proved (3) | Adj | Adj, Composite, Convert, Mask, Pdg | for all edge lists.  |
| C38 Weighted matrix sums weights | proved (2) | Adj | Adj, Composite, Convert, Mask, Pdg | for all weighted edge lists.  |
| C39 vertex_descendants is reachability | proved (2) | Descend | Adj, Descend, Mask, Pdg | for all edge lists and vertices.  |
| C40 edge_descendants adds the edge itself | proved (2) | Descend | Adj, Descend, Mask, Pdg | for all edge lists and edges.  |
| C41 hadron_vertices finds hadronisation vertices | proved (1) | Descend | Adj, Descend, Mask, Pdg | for all events.  |
| C42 find_vertex matches in and out codes | proved (2) | Descend | Adj, Descend, Mask, Pdg | for all events and code sets.  |
| C43 Parton keys are unique | proved (2) | Keys | Adj, Hard, Mask | for all lists of particle names.  |
| C44 hard_descendants marks parton and descendants | proved (1) | HardDesc | Adj, Composite, Convert, Descend, Hard, Mask, Pdg | for all events.  |
| C45 Which records hard_descendants marks for a target | proved (4) | HardDesc | Adj, Composite, Convert, Descend, Hard, Mask, Pdg | for all events and targets. Exact masks for all targets (C45_exact) and when they are the intended ones (C45_right_iff); refuted in general (C45_false). |
| C46 hard_descendants reports missing targets | proved (1) | HardDesc | Adj, Composite, Convert, Descend, Hard, Mask, Pdg | for all events, targets and flags.  |
| C47 hierarchy gives each parton its closest ancestor | proved (3) | Parent | Adj, Composite, Convert, Descend, Hard, Mask, Pdg | for all ancestor relations, any size.  |
| C48 hierarchy groups aggregate to the parton's descendants | proved (6) | Hier, HierErr | Adj, Composite, Convert, Descend, Hard, Heap, HierMem, Mask, Pdg | for all flat hierarchies (forests) and descendant masks. Full tree characterised (C48_tree, C48_given, C48_flat); aggregate statement at every path (C48_groups); containment proved, hence exact aggregates, when final hard partons do not share their end vertex (C48_exact). |
| C49 Which hard partons occur in hierarchy | proved (4) | Hier | Adj, Composite, Convert, Descend, Hard, Mask, Pdg | for all acyclic events with an intermediate state whose final hard partons do not share their end vertex. Exact for every event (C49_any), and in terms of ancestry for acyclic events whose final hard partons do not share their end vertex (C49_occurs, C49_forest); every parton occurring is refuted (C49_false). |
| C50 Leaf masks of hierarchy | proved (2) | Hier | Adj, Composite, Convert, Descend, Hard, Mask, Pdg | for all events. Exact leaf masks with an iff for when they are the descendant masks (C50_leaf); refuted in general (C50_false). |
| C51 partition_descendants assigns each hadron to its nearest parton | proved (4) | Partition | Adj, Composite, Convert, Descend, Hard, Mask, Partition, Pdg | for all masks, trees, events and distances; C51_any also events whose final particles enter hadronisation vertices.  |
| C52 partition_descendants changes final descendants only | proved (2) | Any, Partition | Adj, Composite, Convert, Descend, Hard, Mask, Partition, Pdg | for all events and hierarchies.  |
| C53 any_overlap | proved (5) | MaskC, Raises | Compare, Composite, Convert, Mask | for all groups. any_overlap raises AttributeError for every MaskGroup (C53_group); the algorithm behind it is correct for objects having the attribute it reads (C53_overlap). |
| C54 color_singlets groups color-neutral partons | proved (5) | Singlets | Adj, Composite, Convert, Descend, Hard, Mask, Momentum, Pdg, Select | for all leaf groups and colors. Exact for all leaves (C54_any, C54_invert_any); the intended meaning holds when each leaf holds exactly one outgoing parton (C54_singlets, C54_invert); C54_misaligned exhibits the misalignment of names otherwise. |
| C55 centroid_prune keeps near particles only | proved (7) | Prune | Adj, Composite, Convert, Descend, Hard, Mask, Momentum, Partition, Pdg, Select | for all momenta, masks, centres, radii.  |
| C56 fastjet_clusters orders, cuts and truncates | proved (4) | Fastjet | Adj, Composite, Convert, Descend, Hard, Mask, Momentum, Pdg, Select | for all jet collections and parameters.  |
| C57 arg_closest assigns distinct candidates at minimal cost | proved (7) | ArgClosest | Adj, ArgClosest, Composite, Convert, DeltaR, Descend, Hard, Mask, Momentum, Pdg, ShiftEta | for all focus and candidate momenta, thread counts, schedules of the parallel loops, cache states. Exact condition for returning (C57_returns_iff), optimality whenever it returns. Relative to the contract of scipy's linear_sum_assignment; every schedule of the parallel loops; exact arithmetic with nan/inf. |
| C58 monte_carlo_tag maps partons to clusters | proved (6) | Tag | Adj, ArgClosest, Composite, Convert, DeltaR, Descend, Hard, Mask, Momentum, Partition, Pdg, Select, ShiftEta | for all events, masks and filters. Relative to the contract of scipy's linear_sum_assignment. Blacklist with empty whitelist acts as whitelist (C58_swapped, C58_false). |
| C59 arg_closest and the rapidities of its arguments | proved (3) | ArgClosest | Adj, ArgClosest, Composite, Convert, DeltaR, Descend, Hard, Mask, Momentum, Pdg, ShiftEta | for all momenta, all cache states before the call. Complete heap effect: C59_rapidity (all outcomes but ZeroDivisionError) and C59_failure. Refutation of the unconditional expectation: C59_false. |
| C60 clusters returns masks over the final particles | proved (4) | Clusters | Adj, Clusters, Composite, Convert, Descend, Hard, Mask, Momentum, Partition, Pdg, Select | for all events.  |
| C61 shift_rapidity is a longitudinal Lorentz boost | proved (6) | Kinematics | Momentum | for all momenta and shifts (reals).  |
| C62 shift_phi is an azimuthal rotation | proved (5) | Rotation | Adj, Composite, Convert, Descend, Hard, Mask, Momentum, Pdg | for all momenta and shifts.  |
| C63 What shift_eta shifts | proved (9) | ShiftEta | Adj, Composite, Convert, Descend, Hard, Mask, Momentum, Pdg, ShiftEta | for all momenta, shifts and iteration counts. Exact effect for systems off the beam axis away from the tolerance (C63_rapidity, C63_massless, C63_false); experimental shift in full; array shifts raise TypeError (C63_array_false). |
| C64 When shift_eta warns | proved (3) | ShiftEta | Adj, Composite, Convert, Descend, Hard, Mask, Momentum, Pdg, ShiftEta | for all momenta, tolerances and iteration counts. C64_nowarn for every input; C64_exact characterises the warning off the beam axis; refuted converse: C64_false. |
| C65 delta_R is a symmetric distance | proved (9) | DeltaR | Adj, Composite, Convert, DeltaR, Descend, Hard, Mask, Momentum, Pdg, ShiftEta | for all momenta incl. infinite rapidities. Zeros without sign; with signed zeros the claims hold for nonzero transverse momenta, see C142 (C142_rotation, C142_false). |
| C66 Parallel delta_R is schedule-independent and agrees with the serial one | proved (2) | DeltaR | Adj, Composite, Convert, DeltaR, Descend, Hard, Mask, Momentum, Pdg, ShiftEta | for all schedules / interleavings, all sizes, all rapidities incl. nan and inf.  |
| C67 mass and combined_mass agree with the Minkowski norm | proved (4) | Kinematics | Momentum | for all momenta.  |
| C68 aggregate_momenta sums clusters | proved (2) | Rotation | Adj, Composite, Convert, Descend, Hard, Mask, Momentum, Pdg | for all momenta and mask lists.  |
| C69 The thrust objective is bounded and its gradient is right | proved (2) | EventShape | EventShape, Momentum | for all nonzero momenta and axes.  |
| C70 The spherocity objective's gradient | proved (2) | EventShape | EventShape, Momentum | for all momenta and axes. Value and azimuth component exact, exact error term of the inclination component (C70_gradient); C70_false refutes that it vanishes. |
| C71 c_parameter is the C-parameter | proved (3) | EventShape | EventShape, Momentum | for all non-empty sets of nonzero momenta.  |
| C72 jaccard_distance is a metric on masks | proved (5) | Cluster | Adj, Cluster, Composite, Convert, DeltaR, Descend, Hard, Mask, Momentum, Pdg, ShiftEta | for all masks of a common length, all weights.  |
| C73 Clustering coefficients are fractions | proved (4) | Cluster | Adj, Cluster, Composite, Convert, DeltaR, Descend, Hard, Mask, Momentum, Pdg, ShiftEta | for all symmetric adjacency matrices with empty diagonal.  |
| C74 The thread count is restored | proved (2) | Cluster | Adj, Cluster, Composite, Convert, DeltaR, Descend, Hard, Mask, Momentum, Pdg, ShiftEta | for all nesting structures, all exceptions.  |
| C75 weighted_centroid under azimuthal rotations | proved (6) | Centroid | Adj, Centroid, Composite, Convert, Descend, Hard, Mask, Momentum, Pdg | for all momenta. Exact effect of a rotation (C75_rotation); equivariance refuted (C75_false); nan case C75_beam. |
| C76 When event shapes are defined | proved (3) | EventShape | EventShape, Momentum | for all momenta. Exact domain of definition (C76_exact); refutation of the expectation C76_false. |
| C77 cut_adj thresholds affinities | proved (6) | Matrix | Matrix | for all matrices, square or not, of numbers with infinities and nan, cuts, and flags of any type.  |
| C78 knn_adj has k nearest neighbours per node | proved (5) | Matrix | Matrix | for all square matrices over a linear order (nan last), all integers k, flags of any type, every valid partition order. Relative to the contract of np.argpartition, for every permitted result. The documentation's orientation is refuted (C78_false). |
| C79 fc_adj is the complete graph | proved (1) | Matrix | Matrix | for all integers n, all dtypes with a 0 and a 1, flags of any type.  |
| C80 rotation_matrix is a rotation about the axis | proved (5) | Transform | Adj, Composite, Convert, Descend, EventShape, Hard, Mask, Momentum, Partition, Pdg, Transform | for all angles and axes.  |
| C81 Axis/angle conversions | proved (6) | SoftHard, Transform | Adj, Composite, Convert, Descend, EventShape, Hard, Mask, Momentum, Partition, Pdg, Transform | for all axis vectors. Exact round trip with an iff (C81_roundtrip); inversion refuted (C81_false, C81_softhard_false). |
| C82 split_momentum conserves four-momentum | proved (2) | Transform | Adj, Composite, Convert, Descend, EventShape, Hard, Mask, Momentum, Partition, Pdg, Transform | for all momenta, fractions, angles and axes.  |
| C83 split_hardest splits one particle and keeps the rest | proved (3) | Transform | Adj, Composite, Convert, Descend, EventShape, Hard, Mask, Momentum, Partition, Pdg, Transform | for all momenta sets, fractions, angles, axes.  |
| C84 from_spherical_uniform draws physical momenta over the upper hemisphere | proved (4) | Spherical | Adj, Composite, Convert, Descend, EventShape, Hard, Mask, Momentum, Partition, Pdg, Transform | for all random draws. Random draws are parameters. Exact set of directions: upper hemisphere (C84_false, C84_covers). |
| C85 What derived quantities show after writes | proved (6) | Cached | Cached | for all histories of reads, writes and copies. Complete account over all histories (C85_first_read, C85_later_read, C85_follows, C85_copy); refutation C85_false. |
| C86 Printed tables show head and tail | proved (4) | Table | Composite, Convert, Mask, Table | for all events, all record counts. The layout done by tabulate is not modelled. Events with edges but no particle data characterised by C86_false. |
| C87 PdgArray.from_name inverts name | proved (2) | Pdg | Mask, Pdg | for all name lists, all lookup tables with unique names.  |
| C88 numpy functions keep or drop the wrapper | proved (10) | Ufunc | Convert, Ufunc | for all ufunc results. Operands of one class in full; the failing combinations are characterised by C88_columns_false, C88_axis_false, C88_mixed_false. The universal function itself is a parameter. |
| C89 Derived kinematic quantities have their textbook meaning | proved (5) | Rotation, Twice | Adj, Composite, Convert, Descend, Hard, Mask, Momentum, Partition, Pdg | for all real four-momenta, all tolerances.  |
| C90 Thrust and spherocity search boxes reach every axis | proved (2) | EventShape | EventShape, Momentum | for all unit vectors, all momenta, all pairs of angles.  |
| C91 resultant_coords is equivariant | proved (1) | Centroid | Adj, Centroid, Composite, Convert, Descend, Hard, Mask, Momentum, Pdg | for all momenta, rotations and boosts.  |
| C92 Comparing arrays with == is record by record | proved (5) | Compare | Compare, Composite, Convert, Mask | for all arrays, all lengths, all operands. Proved; element equality is a parameter (so nan != nan is covered). |
| C93 Comparisons that always fail | proved (7) | Compare, Raises | Compare, Composite, Convert, Mask | for all arrays, edge lists and events.  |
| C94 Iteration gives the records in order | proved (3) | Iter | Convert, Iter | for all arrays of all classes.  |
| C95 Assigning data converts like the constructor | proved (3) | Iter | Convert, Iter | for all values of all shapes, all classes.  |
| C96 parton_hadron_distance and the real partition distance | proved (7) | Distance | Adj, Composite, Convert, DeltaR, Descend, Distance, Hard, Mask, Momentum, Partition, Pdg, ShiftEta | for all momenta, exponents, schedules, trees. Proved in exact arithmetic with nan and infinities; schedule of the parallel loop is universally quantified. |
| C97 thrust and spherocity return values of the event shape along the axis found | proved (5) | Optimise, SphGlobal | Adj, Composite, Convert, Descend, EventShape, Hard, Mask, Momentum, Optimise, Partition, Pdg, Transform | for all events, all optimisers keeping the contract, all initial guesses. scipy.optimize.minimize is a parameter: an arbitrary adaptive strategy returning the best of the in-bounds points it evaluated. |
| C98 AdjacencyList keeps answering for the edges it had when first asked | proved (6) | AdjCache | Adj, AdjCache | for all edge lists, all histories of reads and writes. The edges being written in place are modelled as replacing the whole buffer by as many edges. |
| C99 Which arrays share memory | proved (8) | Buffer | Buffer, Composite, Convert, Mask | for all arrays, all subscripts, all histories of writes, views, copies and assignments of two users. A record is one cell; the converter's re-interpretation of odd shapes is C17/C18/C95. |
| C100 agg_op is whatever was given last, and understood when read | proved (9) | RawMask | Mask, RawMask | for all nested groups, all strings, all histories of assignments. Strings lower by ASCII rules (no other character lowers to a letter of the three names). |
| C101 Printing a group lists every name at its depth | proved (2) | RawMask | Mask, RawMask | for all nested groups. The guides, wrapping and markup done by rich are not modelled, only the lines and their depth. |
| C102 Structured arrays and dictionaries of masks | proved (3) | RawMask | Mask, RawMask | for all structured arrays, all groups.  |
| C103 Particle properties are looked up code by code | proved (3) | PdgProps | PdgProps | for all tables, all code arrays, all subscripts. The PDG table of mcpid is a parameter; properties(codes, columns) is assumed to return one new record per code. |
| C104 Selections do not depend on the order of the records | proved (5) | SymHier, Symmetry | Adj, Composite, Convert, Descend, Hard, Mask, Partition, Pdg | for all graphs, all reorderings.  |
| C105 Selections do not depend on the ids of the vertices | proved (5) | SymHard, Symmetry | Adj, Composite, Convert, Descend, Hard, Mask, Pdg | for all graphs, all renamings.  |
| C106 Descendants are nested | proved (4) | Symmetry | Adj, Composite, Convert, Descend, Hard, Mask, Pdg | for all graphs. The expectation for all vertices is refuted (C106_false). |
| C107 A mask group is an ordered map of names to masks | proved (6) | Mapping | Mapping, Mask, RawMask | for all groups, all histories of calls. The mixin methods of collections.abc.MutableMapping are modelled from their documented source; the expectations of dict behaviour for popitem, setdefault and values() are refuted (C107_false). |
| C108 The weight argument of combined_mass | proved (4) | MassWeight | MassWeight, Momentum | for all momenta and weight arguments of up to two dimensions. Exact arithmetic; weights of three or more dimensions and the order of fields of structured weights are not modelled. The expectation of the documentation is refuted (C108_false). |
| C109 The printed form of arrays keeps the text numpy prints | proved (3) | ArrayRepr | ArrayRepr | for all texts numpy may print, class names without newline, dtype texts without newline and equals sign. The texts numpy prints for data and dtype are parameters. |
| C110 partition_descendants is idempotent | proved (2) | PartitionIdem, Twice | Adj, Composite, Convert, Descend, Hard, Mask, Momentum, Partition, Pdg | for all events, hierarchies and distances. Same hypotheses as C51. |
| C111 from_matrix with self-loops | proved (3) | SelfLoop | Adj, Composite, Convert, Mask, Pdg | for all square matrices with at least one node. The expectation that diagonal weights survive is refuted (C111_false). |
| C112 partition_descendants and the order of records and ids of vertices | proved (6) | PartitionSym, SymPipe | Adj, Clusters, Composite, Convert, Descend, Hard, Mask, Momentum, Partition, Pdg, Select | for all events, hierarchies, distances, permutations and renamings. Same hypotheses as C51. That ids and order never matter is refuted (C112_false_ties, C112_false_ids). |
| C113 Event shapes and masses under collinear splittings and soft emissions | proved (7) | Safety | Adj, Composite, Convert, Descend, EventShape, Hard, Mask, Momentum, Optimise, Partition, Pdg, Transform | for all events, all axes, all fractions and all soft momenta. Exact for collinear splittings; a limit for soft emissions. Zero momentum is refuted (C113_false). |
| C114 combined_mass of physical particles adds up | proved (5) | MassSum | Momentum | for all sets of physical particles, all partitions and all masks. Over the reals; the condition on the energies is needed (C114_false). |
| C115 Event shapes of a rotated event | proved (7) | ShapeRot, SphGlobal | Adj, Composite, Convert, Descend, EventShape, Hard, Mask, Momentum, Optimise, Partition, Pdg, Transform | for all events, rotations, directions, optimisers and guesses. Optimality inside the bounds is a hypothesis of C115_thrust, as in C97_global. For errors of spherocity refuted (C115_false). |
| C116 hierarchy writes only into its own copies | proved (2) | HierMem | Adj, Composite, Convert, Descend, Hard, Heap, HierMem, Mask, Pdg | for all heaps, aliasing patterns, events and descendant groups.  |
| C117 partition_descendants writes only to its own copy | proved (2) | PartitionMem | Adj, Composite, Convert, Descend, Hard, Heap, HierMem, Mask, Partition, PartitionMem, Pdg | for all heaps, aliasing patterns, events, distances and mask trees.  |
| C118 Accuracy of mass, transverse mass and rapidity when arithmetic rounds | proved (7) | Rounded | Momentum, Rounded | for all ways of rounding with relative error u in [0, 1), all four-momenta, all tolerances; no overflow or underflow.  |
| C119 A copy of a mask behaves as a value under in-place updates | proved (4) | Edits | Adj, Composite, Convert, Descend, Hard, Heap, HierMem, Mask, PartitionMem, Pdg | for all heaps, sharing patterns, mask trees and finite series of updates.  |
| C120 clusters overwrites and removes masks only inside its own tree | proved (1) | ClustersMem | Adj, Clusters, ClustersMem, Composite, Convert, Descend, Hard, Heap, HierMem, Mask, Momentum, Partition, PartitionMem, Pdg, Select | for every event record, radius, distance, set iteration order and state of memory.  |
| C121 What the constructors store | proved (5) | Cast | Cast, Convert, Mask, Pdg | for all arrays of booleans, integers and doubles of all shapes, all classes, all platforms (in what C leaves undefined). Python lists of integers out of bounds (OverflowError or wrapping, by numpy version) are not modelled; conversions undefined in C are parameters. |
| C122 Which objects a group shares with the masks it was made from | proved (6) | ShareMem | Adj, Clusters, ClustersMem, Composite, Convert, Descend, Hard, Heap, HierMem, Mask, Partition, PartitionMem, Pdg, ShareMem | for all heaps, sharing patterns, mask trees, mappings and lists of names. Given enough recursion depth. Arrays handed over are contiguous and boolean (others are copied, as values). |
| C123 Accuracy of summed momenta, combined mass and centroids when arithmetic rounds | proved (7) | RoundedSum | Momentum, Rounded, RoundedSum | for all ways of rounding with relative error u in [0, 1), all orders of summation, all particle lists of any length; no overflow or underflow.  |
| C124 delta_R of arrays with stored quantities | proved (8) | DeltaRCall | Adj, ArgClosest, Cached, Composite, Convert, DeltaR, DeltaRCall, Descend, Hard, Mask, Momentum, Pdg, ShiftEta | for all pairs of arrays (the same object included), all histories of reads and writes, all schedules of the parallel kernels, all thread numbers, all contents of memory outside the arrays.  |
| C125 hierarchy and partition_descendants share out the final momenta once | proved (3) | Pipeline | Adj, Clusters, Composite, Convert, Descend, Hard, Mask, Momentum, Partition, Pdg, Select | for all events, all distances, all momenta.  |
| C126 What is computed from a set of particles does not depend on their order | proved (4) | OrderFree | Adj, Centroid, Cluster, Composite, Convert, DeltaR, Descend, EventShape, Hard, Mask, Momentum, Optimise, Partition, Pdg, Select, ShiftEta | for all sets of particles, all permutations, all schedules.  |
| C127 combined_mass and overflow | proved (3) | MassOverflow | MassOverflow, Momentum, Rounded, RoundedSum | for all ways of rounding with relative error u in [0, 1], all orders of summation, all ranges of numbers, all particle lists of any length; finite inputs.  |
| C128 One record of an event, and iterating over an event | proved (9) | IntEvent | Convert, IntEvent, Iter | for all events whose attributes are empty or hold one row per record, of any lengths, all integers, any number of calls of next.  |
| C129 Assignments by angular distance do not depend on the frame | proved (9) | Frames | Adj, ArgClosest, Composite, Convert, DeltaR, Descend, Distance, Hard, Mask, Momentum, Partition, Pdg, Select, ShiftEta | for all events of any size, all angles and boosts, all schedules, all solvers of the assignment problem. Boost invariance of partition_descendants is proved for massless momenta and refuted with a massive parton (C129_partition_boost_false). |
| C130 Operators in place | proved (19) | InPlace | Buffer, Composite, Convert, InPlace, Mask | for all states of names, objects and memory, all operations on records, all operands, all histories of any length.  |
| C131 Assignments do not depend on the order of partons and clusters | proved (4) | Reorder | Adj, ArgClosest, Centroid, Cluster, Composite, Convert, DeltaR, Descend, EventShape, Hard, Mask, Momentum, Optimise, Partition, Pdg, Select, ShiftEta | for all momenta, masks and permutations of any size, all schedules, all solvers meeting the contract of linear_sum_assignment.  |
| C132 Flag arguments that are not the two booleans | proved (7) | Flags | Adj, Composite, Convert, Descend, Flags, Hard, Heap, Mask, Momentum, Pdg, Select | for all flag objects, all events, groups, matrices and targets of any size.  |
| C133 clusters and color_singlets under symmetries of the event | proved (8) | ClusterOrder, ClusterSym | Adj, ArgClosest, Centroid, Cluster, Clusters, ClustersMem, Composite, Convert, DeltaR, Descend, Distance, EventShape, Hard, Heap, HierMem, Mask, Momentum, Optimise, Partition, PartitionMem, Pdg, Select, ShiftEta | for all events of any size, all renamings and permutations, all angles and boosts, all iteration orders of sets.  |
| C134 Graphs of affinities: renumbering of nodes, growth and edge lists | proved (9) | GraphSym | Adj, Centroid, Cluster, Composite, Convert, DeltaR, Descend, EventShape, Hard, Mask, Matrix, Momentum, Optimise, Partition, Pdg, Select, ShiftEta | for all affinity matrices of any size, all renumberings, cuts, modes and flags, all legal argpartitions, all schedules.  |
| C135 What a group makes of the values given for its masks | proved (5) | Given | Convert, Given, Mapping, Mask, RawMask | for all nested mappings of any depth, all shapes, all histories of assignments.  |
| C136 Accuracy of azimuthal differences and distances when arithmetic rounds | proved (9) | RoundedR | Adj, Composite, Convert, DeltaR, Descend, Hard, Mask, Momentum, Pdg, Rounded, RoundedR, ShiftEta | for all momenta, all arithmetics whose operations have a relative error of at most u.  |
| C137 The final descendants carry the momentum that enters | proved (6) | Flow | Adj, Composite, Convert, Descend, Hard, Mask, Momentum, Partition, Pdg, Select | for all graphs, momenta and vertices.  |
| C138 Events cut out of events | proved (5) | SubEvent | Adj, Composite, Convert, Descend, Hard, Mask, Momentum, Pdg | for all graphs, masks and vertices.  |
| C139 Events laid over each other | proved (6) | Overlay | Adj, Composite, Convert, Descend, Hard, Mask, Momentum, Pdg | for all pairs of events without a common vertex id.  |
| C140 Event shapes at their extremes | proved (4) | Extremes | Adj, Composite, Convert, Descend, EventShape, Hard, Mask, Momentum, Optimise, Partition, Pdg, Transform | for all events of moving particles, all axes, all optimisers that find the best axis.  |
| C141 The initial guess for the axis is not uniform over the sphere | proved (1) | Guess | Adj, Composite, Convert, Descend, EventShape, Guess, Hard, Mask, Momentum, Optimise, Partition, Pdg, Transform | for the law of the initial guess, all laws uniform over the sphere.  |
| C142 Signed zeros | proved (6) | SignedZero | Adj, Composite, Convert, DeltaR, Descend, Hard, Mask, Momentum, Pdg, ShiftEta, SignedZero | for all momenta, all signs of their zero components, all rotation angles.  |
| C143 Quantities of a selection are selected quantities | proved (6) | Selected | Adj, Cached, Composite, Convert, DeltaR, Descend, Hard, Mask, Momentum, Pdg, PdgProps, ShiftEta | for all arrays, subscripts (masks, index lists, slices), histories, targets, schedules.  |
| C144 Accuracy of rotations and boosts when arithmetic rounds | proved (7) | RoundedShift | Momentum, Rounded, RoundedShift | for all momenta, sequences of shifts of any length, and all arithmetics of relative error at most u.  |
| C145 Infinite and nan components, and what is left after an experimental shift | proved (16) | NonFinite | Adj, Composite, Convert, Descend, Hard, Mask, Momentum, NonFinite, Pdg, Rounded, RoundedSum, ShiftEta | for all records with real, infinite or nan components, all tolerances, shifts, sign bits of nan and orders of summation.  |
| C146 Accuracy of the event shapes when arithmetic rounds | proved (8) | RoundedShape | EventShape, Momentum, Rounded, RoundedShape, RoundedShift | for all lists of momenta, all axes, all arithmetics of the given accuracy, all u < 1.  |
| C147 Infrared and collinear safety of partition_descendants | proved (6) | PartitionSafety | Adj, ArgClosest, Composite, Convert, DeltaR, Descend, Distance, EventShape, Hard, Mask, Momentum, Optimise, Partition, Pdg, Select, ShiftEta, Transform | for all events, trees, exponents, partons, directions and splitting fractions.  |
| C148 arg_closest against its documentation | proved (4) | ArgClosestDocs | Adj, ArgClosest, Composite, Convert, DeltaR, Descend, Hard, Mask, Momentum, Pdg, ShiftEta | for all focus and candidate arrays, thread counts, schedules of the parallel loops and correct assignment solvers.  |
| C149 What the children of a split are | proved (6) | SplitChildren | Adj, Composite, Convert, Descend, EventShape, Hard, Mask, Momentum, Partition, Pdg, Transform | for for every particle, fraction, angle and axis.  |
| C150 Rotations and splittings under rounding | proved (9) | RoundedSplit | Adj, Composite, Convert, Descend, EventShape, Hard, Mask, Momentum, Partition, Pdg, Rounded, RoundedShape, RoundedShift, RoundedSplit, Transform | for for every arithmetic of relative accuracy u < 1, every particle, set of particles, fraction, angle and axis.  |
| C151 Masses and norms at the ends of the range of numbers | proved (12) | Range | EventShape, Momentum, Range, Rounded, RoundedShape, RoundedShift | for for every arithmetic of accuracy (u, eta) and every largest number, every particle and every axis.  |
| C152 Events are objects that share their parts | proved (14) | EventObj | Buffer, Composite, Convert, EventObj, InPlace, Mask | for for every history of operations on any number of events, particle sets and arrays, in any order between two users.  |
| C153 jaccard_distance with rounding, overflow and weights that are not numbers | proved (9) | RoundedSets | Adj, Cluster, Composite, Convert, DeltaR, Descend, Hard, Mask, Momentum, Pdg, RoundedSets, ShiftEta | for all ways of rounding in order, all ranges of numbers, all masks of any length, all weights.  |
| C154 Clustering coefficients in single precision | proved (7) | SingleCount | Adj, Cluster, Composite, Convert, DeltaR, Descend, Hard, Mask, Momentum, Pdg, ShiftEta, SingleCount | for all point-clouds and graphs of any size, all schedules of the parallel loop, all roundings of division and conversion.  |
| C155 Results do not depend on the hash seed | proved (4) | HashSeed | Adj, Clusters, Composite, Convert, Descend, Hard, Mask, Momentum, Partition, Pdg, Select | for all events, all radii and distances, all pairs of iteration orders of sets.  |
| C156 Pruning around a centre when arithmetic rounds | proved (9) | RoundedPrune | Adj, Composite, Convert, DeltaR, Descend, Hard, Mask, Momentum, Partition, Pdg, Rounded, RoundedPrune, RoundedR, Select, ShiftEta | for all momenta, masks, centres and radii, all roundings of every operation within relative error u.  |
| C157 Several threads reading cached quantities | proved (8) | Threads | Adj, AdjCache, Cached, Threads | for all numbers of threads, all sequences of reads by each, all interleavings, all contents of the arrays, with and without locks.  |
| C158 The warning filters when several threads are at work | proved (6) | Warnings | Adj, Composite, Convert, Descend, Hard, Mask, Momentum, Pdg, Warnings | for all numbers of threads, all sequences of calls by each, all interleavings, all momenta, all filters at the start.  |
| C159 What fastjet_clusters returns with the generalised-kt algorithm | proved (10) | GenKt, GenKtExamples, GenKtFrames | Adj, ArgClosest, Centroid, Cluster, Composite, Convert, DeltaR, Descend, Distance, EventShape, GenKt, Hard, Mask, Momentum, Optimise, Partition, Pdg, Select, ShiftEta, Transform | for all lists of momenta, all radii, exponents, cuts and top_k, all ways in which ties are resolved, all boosts and rotations, all orders of the particles, all collinear splittings of a particle.  |
| C160 The unit of the momenta | proved (12) | Units, UnitsClosest, UnitsFastjet, UnitsShapes | Adj, ArgClosest, Centroid, Cluster, Clusters, ClustersMem, Composite, Convert, DeltaR, Descend, Distance, EventShape, GenKt, Hard, Heap, HierMem, Mask, MassWeight, Momentum, Optimise, Partition, PartitionMem, Pdg, Select, ShiftEta, Transform | for every positive conversion factor, tolerance, momentum array, graph and set of parameters.  |
| C161 Double precision meets the contracts | proved (14) | BinaryA, BinaryB, BinaryC, BinaryD, BinaryE | Adj, ArgClosest, Binary, Centroid, Cluster, Clusters, ClustersMem, Composite, Convert, DeltaR, Descend, Distance, EventShape, Hard, Heap, HierMem, Mask, MassWeight, Momentum, Optimise, Partition, PartitionMem, Pdg, Range, Rounded, RoundedPrune, RoundedR, RoundedShape, RoundedShift, RoundedSplit, RoundedSum, Select, ShiftEta, SingleCount, Transform | for all numbers of bits, all records, all collections of particles, all orders of summation.  |
| C162 Mirror images | proved (15) | Mirror, MirrorFalse, MirrorKt, MirrorSel | Adj, ArgClosest, Centroid, Cluster, Clusters, ClustersMem, Composite, Convert, DeltaR, Descend, Distance, EventShape, GenKt, Hard, Heap, HierMem, Mask, MassWeight, Momentum, Optimise, Partition, PartitionMem, Pdg, Select, ShiftEta, Transform | for all momenta, events, hierarchies, schedules, radii, axes.  |
| C163 Tightening a cut never adds anything | proved (10) | Cuts | Adj, ArgClosest, Cluster, Clusters, Composite, Convert, DeltaR, Descend, Distance, Hard, Mask, Momentum, Partition, Pdg, Select, ShiftEta | for all events, hierarchies, radii, cuts, ranges and target lists, outputs of FastJet, sort orders and schedules of the parallel loops.  |
| C164 Selections applied to their own results | proved (7) | Again | Adj, ArgClosest, Centroid, Cluster, Clusters, ClustersMem, Composite, Convert, DeltaR, Descend, Distance, EventShape, GenKt, Hard, Heap, HierMem, Mask, Momentum, Optimise, Partition, PartitionMem, Pdg, Select, ShiftEta, Transform | for all events, jets, exponents, cuts, radii, centres, masks, code lists, ranges and groups of any depth.  |
| C165 Without ties fastjet_clusters is determined | proved (4) | Ties | Adj, ArgClosest, Centroid, Cluster, Clusters, ClustersMem, Composite, Convert, DeltaR, Descend, Distance, EventShape, GenKt, Hard, Heap, HierMem, Mask, Momentum, Optimise, Partition, PartitionMem, Pdg, Select, ShiftEta, Transform | for all events, radii, exponents, cuts, top_k, orders in which FastJet searches and sorts.  |
| C166 fastjet_clusters does not mind a little noise | proved (6) | Noise, NoiseExamples | Adj, ArgClosest, Centroid, Cluster, Clusters, ClustersMem, Composite, Convert, DeltaR, Descend, Distance, EventShape, GenKt, Hard, Heap, HierMem, Mask, Momentum, Optimise, Partition, PartitionMem, Pdg, Select, ShiftEta, Transform | for all events, radii, exponents, pt_cut, eta_cut, top_k, all perturbations within the margin and any number of soft particles.  |
| C167 Event shapes and masses of an event that drifted | proved (6) | Drift | Adj, Composite, Convert, Descend, EventShape, Hard, Mask, Momentum, Optimise, Partition, Pdg, Transform | for all events of moving particles, all drifts of any size and any number of soft particles, all axes, optimisers and guesses.  |
| C168 Off ties and boundaries, selections by angular distance do not mind a little noise | proved (4) | Stable | Adj, ArgClosest, Centroid, Cluster, Clusters, ClustersMem, Composite, Convert, DeltaR, Descend, Distance, EventShape, GenKt, Hard, Heap, HierMem, Mask, Momentum, Optimise, Partition, PartitionMem, Pdg, Select, ShiftEta, Transform | for all events, graphs, status codes, hierarchies and distance exponents; all masks, radii, tolerances and centres; all perturbations of all momenta at once.  |
| C169 Off ties, arg_closest does not mind a little noise | proved (2) | ArgStable | Adj, ArgClosest, Centroid, Cluster, Clusters, ClustersMem, Composite, Convert, DeltaR, Descend, Distance, EventShape, GenKt, Hard, Heap, HierMem, Mask, Momentum, Optimise, Partition, PartitionMem, Pdg, Select, ShiftEta, Transform | for all focus and candidate arrays, events and cluster masks of all sizes, all perturbations of all momenta at once, all schedules, thread counts, solvers and histories of the two objects.  |
| C170 Off ties and boundaries, clusters does not mind a little noise | proved (1) | ClusterStable | Adj, ArgClosest, Centroid, Cluster, Clusters, ClustersMem, Composite, Convert, DeltaR, Descend, Distance, EventShape, GenKt, Hard, Heap, HierMem, Mask, Momentum, Optimise, Partition, PartitionMem, Pdg, Select, ShiftEta, Transform | for all events of all sizes, all radii and exponents, all orders of iteration over sets, all perturbations of all momenta at once.  |

No property is classified *not applicable*.
