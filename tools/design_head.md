# Formal model of jacanchaplais/graphicle in Lean 4 — design

`tools/design.py` assembles this file: the prose is `tools/design_head.md`, the table of properties comes from
`properties.jsonl`, `MANIFEST.json` and the sources.  The first version, a plan written before the proofs, is in the
first commits of the repository; nothing planned was dropped.

## 1. Layout

* `lean/Verif/Model/*.lean` — the model: functions that mirror `/repo/graphicle` function by function and branch by
  branch, with exceptions as values.  Every definition cites the file and lines it models; simplifications are said
  there.  `COVERAGE.md` (generated) lists every definition with its citation.
* `lean/Verif/Spec/*.lean` — small specifications in which the properties are stated (reachability, nearest ancestor,
  axis-aligned thrust, ordered maps, two-user memory games, …).
* `lean/Verif/Lemmas/*.lean` — helper lemmas.
* `lean/Verif/Props/*.lean` — the property theorems `Cnn_…`.  Beside each one `example`s show concrete non-trivial
  cases that meet its hypotheses.
* `AXIOMS.txt` (generated) — the axioms each property theorem depends on.
* `seeded/` — wrong programs the theorems were tested against, see section 6.
* `tools/` — generators of `properties.jsonl`, `MANIFEST.json`, `lean/Verif.lean`, `AXIOMS.txt`, `COVERAGE.md`, this
  file, and the mutation runner.

## 2. Trusted base

* Lean's kernel (4.33.0) and the statements of the definitions used from Lean core and Mathlib (real numbers, complex
  argument, `HasDerivAt`, hyperbolic functions, …).
* Axioms: only `propext`, `Quot.sound` and `Classical.choice`; `AXIOMS.txt` gives them for each theorem.  No axiom is
  declared, nothing is proved by compiled code, there is no hole.
* The faithfulness of the model: the code cannot be run here, so the only tie between model and code is the reading of
  the cited lines, and of numpy/scipy semantics as listed in section 4.

## 3. Conventions

* numpy 1-D arrays are `List`s, 2-D arrays lists of rows or (for constructors) a shape with flat data.
  Exceptions are values of `Py α = Except PyErr α`, with the Python exception class.
* Python dicts are association lists with unique keys in insertion order.
* Integers are unbounded, except where a property depends on the width: `abs` of int16/int32 codes wraps at the
  minimum (C22, C23), int16/int32 casts in LHE events (C30).
* Floating point: rounding is not modelled.  Formulas are over `ℝ`; where the code can meet nan or infinities (empty
  clusters, particles at rest or along the beam, equal transverse momenta), values live in `Fl = ℝ + {±inf, nan}`.
* In-place mutation: value-level models return the new value; the properties about aliasing and caching (C13, C14,
  C30, C59, C85, C98, C99) have their own state machines (object heap, cached attributes, buffers with views) and are
  proved for all histories.
* Parallel loops (numba `prange`) are modelled as a list of writes executed in an arbitrary order; the theorems
  quantify over all orders (C57, C66, C96).
* Expectations that the code does not meet: the property is then stated as what the code does, exactly, and the
  expectation is refuted by a theorem `Cnn_false` (or with a telling name) on a concrete witness.  Section 5 lists
  these findings.

## 4. What is modelled, and what is not

Modelled: all of `select.py`, `calculate.py`, `matrix.py`, `transform.py`; in `data.py` the constructors and
conversions, subscripts, comparisons, iteration, `data` setters, ufunc protocol, masks and mask groups, PDG masks and
`from_name`, kinematics and their caches, `shift_*`, `delta_R`, status masks, composites, LHE import, serialization,
adjacency lists with their caches, the stored `agg_op` strings, the lines of printed mask trees, structured masks and
`to_dict`, the looked-up PDG properties, and the head/tail logic of the printed tables.

Not modelled:

* `__array_interface__`, the layout done by `tabulate` and `rich` and numpy's text of an array, docstrings,
  deprecation warnings; the abstract classes and type aliases in `base.py`.
* floating-point rounding (except in C118, C123, C127, C136, C144, C146, C150, C151, C153, C154, C156 and C161, where every operation rounds), the sign of zero (except in C142), infinite or nan components of momenta (except in C145), overflow to inf (except in C127, C151 and C153), float parsing; integer overflow other than the cases above and the constructors' casts (C121);
* time, memory use, the real thread scheduler (only the order of the loop's writes and the thread-count bookkeeping; all interleavings of reads in C157 and C158);
* the byte layout of structured arrays (records are tuples of named fields).

Contracts assumed of other libraries, always as parameters or as explicit algorithms in the model:

| library | what is assumed |
|---|---|
| numpy | subscripts (masks, integer lists, slices with negative steps), `unique`, `isin`, `argmin` (first, nan first), `argsort` (any sorting permutation), `argpartition` (any admissible result), broadcasting of equal lengths and of length one, which subscripts are views |
| numpy arithmetic | each operation is accurate to a relative unit (C118 and the other rounding properties); C161 proves this contract of rounding to the nearest number of p bits, ties to even, exponents unbounded above; that the machine's `+ - * / sqrt` round so, and that libm's functions are within one unit in the last place, is assumed |
| scipy.sparse | COO construction and its errors, duplicate summation, `breadth_first_tree` (modelled as the queue algorithm itself) |
| scipy.optimize | `linear_sum_assignment`: any optimal assignment; `minimize`: any adaptive strategy which returns the best of the in-bounds points it evaluated |
| pandas | the pivot and join in `find_vertex`, by their result |
| fastjet | `fastjet_clusters`: any partition of the particles into jets with momenta (C56); sequential recombination with the generalised-kt distances, momenta added, pairs merged only if nearer than the radius, ties resolved in any way, exact arithmetic (C159) |
| numba | the order of the iterations of `prange` is arbitrary; the thread count is a global variable; `np.sum(a, dtype=np.float32)` adds one element after the other in single precision (C154; up to 2^24 links the order does not matter) |
| mcpid | the PDG table is an arbitrary table |
| random numbers | the drawn numbers are parameters |
| functools | `cached_property`: look, (lock, look again,) compute, store; the lock is reentrant and one per attribute and class, shared by all objects (C157: Python before 3.12; without locks otherwise) |
| warnings | `catch_warnings`: entry puts a copy of the filters in place, exit puts back the list found on entry; one list for all threads (C158) |

## 5. Findings: expectations the code does not meet

* **Masks.** `agg_op` is not serialized (C06_false). `recursive_drop(inplace=True)` also changes nested groups shared
  with other groups (C14). `any_overlap` always raises `AttributeError` on a `MaskGroup` (C53_group).
  `MaskGroup == MaskArray` and `!=` between the two raise `TypeError`, `MaskArray == MaskGroup` does not (C02_false).
  Any string is accepted as `agg_op` and a misspelt one only raises when the aggregate is read; a list of integers as
  subscript of a group is a `KeyError` (C100).
* **Arrays.** Structured colours are read by position of their fields (C18_false); `color[i]` has length two
  (C19_false), so `graph[i]` misaligns colours, and it cannot be iterated over (C94_flat), so that
  `print(graph[i])` and `graph[i].serialize()` raise (C128_color); iterating over an empty event never ends
  (C128_endless_false); `momenta.data = [e,x,y,z]`
  gives length four (C95_momentum). Negative targets never match in `PdgArray.mask` without `sign_sensitive`
  (C22_false); the default range of `in_range` rejects -32768 (C23_false). Codes out of bounds wrap silently when an
  array is constructed (C121_false).
* **Comparisons.** Comparing momenta, colours or edges with an ndarray, and two adjacency lists or events with each
  other, raises `ValueError` (C93). `==` on particle sets ignores the contents (C28_false).
* **ufuncs.** Boolean functions on momenta/colours/edges raise (C88_columns_false); `axis=-1` reductions are refused
  or taken for a momentum (C88_axis_false); mixing two classes fails (C88_mixed_false).
* **Aliasing and caches.** `from_lhe_event` overwrites an int16 status array of the caller (C30_false). Cached
  kinematics are stale after writes (C85_false), so are roots, leaves, matrix and descendants of an adjacency list
  (C98_false). So an array is not at `delta_R` zero from its copy (C124_copy_false), and with fewer records than stored
  rapidities the kernels read past the end (C124_overrun_false). The leaves of a flattened group are the tree's own masks, its aggregates are snapshots (C122).
  Contiguous slices share memory with the original, all other subscripts do not (C99_slice, C99_false).
  `x op= y` shows in everything sharing memory with `x`, but not in attributes cached there (C130_stale_false), and with
  an array of another class it raises after having overwritten `x` (C130_foreign_false). `mask &= group` raises while
  `mask & group` does not, and with a list it is the other way round (C130_mask_false).
  `arg_closest` leaves the candidates' `rapidity` overwritten by their pt when it fails (C59_false, C59_failure).
* **Events.** `copy` drops edge weights (C27_false). An event with edges but no particle data prints no records
  (C86_false).
* **Graphs.** `from_matrix` loses isolated nodes (C36_false), and with `weighted` and `self_loop` the weights on the
  diagonal (C111_false). `matrix` raises `IndexError` for too few weights and
  ignores surplus ones (C98_matrix_meaning).
* **Mapping methods of groups.** `popitem` takes the first entry, `setdefault` returns the raw default and not the mask
  stored, and `mask in group.values()` is true for every mask of equal length and raises for other lengths (C107_false).
  `group[name] = {...}` stores a mask of length one, where `MaskGroup({name: {...}})` makes a nested group (C135_false).
* **Selections.** The descendants of a leaf vertex are all edges into it, so nesting fails for leaves (C106_false).
  `hard_descendants` with targets marks the wrong parton records (C45_false). Hard partons not related
  to the others are dropped from `hierarchy` (C49_false); its leaf masks, hence `latent`, can be all `False`
  (C50_false). `color_singlets` misaligns names when a leaf has no or several outgoing partons (C54_misaligned);
  `clusters` raises there (C60_no_parton) and `TypeError` on an empty hierarchy. `centroid_prune` keeps nothing when
  transverse momenta balance (C55_balanced). Rounding decides which particles at the edge of the radius are kept (C156_false). Particles nearer to each other than `radius` need not share a mask of `fastjet_clusters` (C159_false). A parton at rest claims every hadron in `partition_descendants`
  (C96_rest), hadrons behind two hadronisation vertices go by the one with the greater id (C112_false_ids), and a final
  particle that enters a hadronisation vertex makes the outcome depend on what was assigned before (C51_false).
  A leaf of `hierarchy` depends on which record of the parton's descendants comes first (C104_hierarchy_false), and its
  leaves count the hadrons of a colour singlet once per parton until `partition_descendants` (C125_false).
  Boosting an event along the beam can move a hadron to another parton, if a parton has mass
  (C129_partition_boost_false). The default distance is infrared safe only up to hadrons exactly along the
  soft parton and partons exactly at rest (C147_soft_false), and no negative exponent is collinear safe
  (C147_collinear_false).
- `split_momentum`, `split_hardest`: `angle` is the displacement of the first child only for an axis perpendicular to
  the parent (C149_angle), which the default axis is not (C149_default_false); the second child of a massless particle
  always has a negative mass (C149_massless_false). Conservation holds only up to rounding (C150_conserved, C150_false).
- `arg_closest`: the documentation says that the costs are the distances and that a candidate nearest to two focus
  elements goes to the nearer one. The first fails because the transverse momenta enter the cost
  (C148_distance_false), the second even when they cancel, because an assignment is optimal in total
  (C148_conflict_false).
  With several optimal assignments, the order of the clusters decides which one `arg_closest` returns (C131_false).
  With `sign_sensitive=0` or `numpy.False_`, `hard_descendants` silently leaves out antiparticles, as the flag is tested by
  truth value in one place and by `is False` in another (C132_no_antiparticles, C132_false).
  `monte_carlo_tag`: a blacklist with an empty whitelist acts as a whitelist (C58_false); no partons is
  `TypeError` (C58_no_partons).
* **Kinematics.** `shift_eta` shifts the rapidity, not the pseudorapidity, of massive systems (C63_false), rejects array
  shifts (C63_array_false), and warns with `max_corrections=1` although it converged (C64_false). `arg_closest` with
  one candidate or equal transverse momenta raises `ZeroDivisionError` (C57_equal_pt). `from_spherical_uniform` only
  draws the upper hemisphere (C84_false). `weighted_centroid` is wrong across the wrap of the azimuth (C75_false) and
  nan with a particle along the beam (C75_beam). `combined_mass` with a vector of per-particle
  weights raises, or weights the components if there are four particles (C108_false). Rounding alone can give a massless
  particle negative mass and a particle with transverse momentum infinite pseudorapidity (C118_mass_false,
  C118_eta_false), lets the combined mass depend on the order of the particles (C123_order_false), and can put
  particles of different azimuth at distance zero (C136_false), and a boost that is large for the precision can give a
  massless particle negative energy (C144_false). The signs of zeros matter: `shift_phi` can change the
  distance to a particle without transverse momentum from 0 to π, and momenta equal as numbers can be at distance π or at
  infinite distance (C142_false). After `shift_eta(experimental=True)` the rapidity is infinite, not nan as documented, so
  that `delta_R(pseudo=False)` quietly gives a difference in azimuth or infinity (C145_false, C145_distance).
  An overflow in `combined_mass` is answered with `0.0` like a negative squared mass: a particle at rest with a mass
  whose square is out of range has combined mass 0 (C127_false). `mass` and `mass_t` do not overflow there (C151_mass,
  C151_mass_t). A particle of subnormal momentum makes the thrust of its event nan for every axis (C151_thrust_nan,
  C151_false).
* An event is not closed: assigning `particles.pdg` changes every event made of the particle set, and no length is checked
  (C152_assign, C152_false). `event[start:stop]` shares memory with the event, `event[mask]` does not (C152_slice,
  C152_subscript).
  `jaccard_distance` is nan as soon as one weight is infinite or nan, also where neither mask is set (C153_weights), and 0
  or nan when sums of weights overflow (C153_false). `cluster_coeff_distbn` counts links in single precision, which stops at
  2^24: the coefficients of particles with more than 4096 mutually linked neighbours are too small (C154_false).
* **Threads.** `combined_mass` and the first read of `eta` change the warning filters of the whole process: beside another thread,
  `combined_mass` can give nan for 0, `eta` can raise `RuntimeWarning`, and after two overlapping calls the filters can
  stay changed for good, so that `phi` no longer warns, or raises (C158_false). Without the locks of Python before 3.12 a cached
  quantity may be computed more than once, harmlessly (C157_false). Rapidity and azimuth depend on the unit of the momenta through the
  absolute zero tolerance: near it a finite rapidity becomes infinite and an azimuth nan when the unit is changed (C160_false).
* **Event shapes.** The inclination component of the spherocity gradient is wrong (C70_false); a particle at rest aborts
  the event shapes (C76_false), so that a particle of vanishing momentum does what no soft particle does (C113_false);
  spherocity 0 is never returned (C97_pencil), and whether spherocity raises depends on the orientation of the event
  (C115_false). The initial guess is documented as uniform over the sphere; it is uniform in two angles and prefers the
  beam (C141_false). Rounding can give a thrust above one or a negative C-parameter (C146_false), and decides whether
  spherocity raises for an axis along a particle (C146_spherocity_false). In double precision the mass of a particle at
  rest with energy 2 is 2 + 2^-51, eta off the beam can be infinite, and sums depend on the order (C161_false_*).
  A mirror shows the azimuth of `weighted_centroid` to be no centroid (C162_false) and the gradient of `spherocity` to be
  wrong (C162_false_gradient). Clustering coefficients can fall when the radius grows (C163_false), and a lower
  `eta_cut` can add a jet when `top_k` is given (C163_false_top_k). Pruning twice around the particles' own centre
  drops more than pruning once (C164_false_prune). The jets depend discontinuously on the momenta at a cut (C166_false_cut) and at
  the radius (C166_false_radius), and on the order of the search with ties (C165_false); away from these, and from pseudojets along the beam, they do not mind a little noise (C166_noise).
* **Matrices and transforms.** `knn_adj` has the opposite orientation to its documentation (C78_false), refuses to
  give all n−1 neighbours, and gives coincident particles k+1 (C78_ties_false). `self_loop=0` or `numpy.False_` adds
  self-loops (C77_flags_false). `_axis_to_angles` takes the elevation for the inclination, so `soft_hard_axis` is wrong
  (C81_false, C81_softhard_false). `split_momentum` of an empty array is `IndexError`, and `z` is not checked.
  `jaccard_distance` of masks of different lengths compares the common prefix (C72_truncates).

## 6. Testing the theorems against wrong programs

`tools/mutate.py` copies a built tree outside `/verif`, applies one edit to a model definition (a wrong boundary, a
swapped argument, a dropped case or update), rebuilds all modules that depend on it, and records which theorems no
longer prove; a failing helper lemma is replaced by a hole (in the scratch copy only) and the build goes on, and a property theorem
counts as failed if its own proof breaks or it rests on a hole.  Every attempt is a line of `seeded/LOG.jsonl`;
survivors led to tightened theorems (`seeded/tightened.json`) or are equivalent programs, and are marked so.

## 7. Properties

Proof method in general: masks, tables, conversions — list induction and case analysis; mask groups — structural
induction over trees, refinement to ordered maps over histories; aliasing and caches — invariants over all histories;
graphs — loop invariant of the breadth-first queue, reflexive-transitive closure; hierarchy and partition — induction
over in-place updates and trees; kinematics and event shapes — real analysis; parallel loops — commuting writes.

