{
 "C06": {
  "note": "Exact: C06_restored, for every tree. agg_op is not serialized, so the round-trip expectation is refuted (C06_false)."
 },
 "C53": {
  "note": "any_overlap raises AttributeError for every MaskGroup (C53_group); the algorithm behind it is correct for objects having the attribute it reads (C53_overlap)."
 },
 "C18": {
  "note": "Exact: C18_columns, C18_swapped. Reading by name is refuted (C18_false)."
 },
 "C19": {
  "note": "Proved for every class; length 2 for ColorArray (C19_color), so length 1 in general is refuted (C19_false)."
 },
 "C22": {
  "note": "Exact for all codes and targets, with 32-bit wrap-around of abs at -2^31 (C22_magnitude). Negative targets never match without sign_sensitive (C22_false)."
 },
 "C23": {
  "note": "Exact for all 16-bit statuses; the default range rejects exactly -32768 (C23_default, C23_false)."
 },
 "C27": {
  "note": "Exact: everything but weights is copied (C27_copy, C27_parts); weights are lost (C27_false)."
 },
 "C28": {
  "note": "Exact decision procedure for all pairs (C28_decides); independence from the contents (C28_contents); comparison of contents refuted (C28_false)."
 },
 "C30": {
  "note": "Complete effect on the caller's arrays (C30_frame); an int16 status array is rewritten in place (C30_false)."
 },
 "C36": {
  "note": "Edges, order and self-loops for all matrices; round trip characterised for all square 0/1 matrices (C36_roundtrip, C36_roundtrip_iff); isolated nodes are lost (C36_false)."
 },
 "C45": {
  "note": "Exact masks for all targets (C45_exact) and when they are the intended ones (C45_right_iff); refuted in general (C45_false)."
 },
 "C48": {
  "note": "Full tree characterised (C48_tree, C48_given, C48_flat); aggregate statement at every path (C48_groups); containment proved, hence exact aggregates, when final hard partons do not share their end vertex (C48_exact)."
 },
 "C49": {
  "note": "Exact for every event (C49_any), and in terms of ancestry for acyclic events whose final hard partons do not share their end vertex (C49_occurs, C49_forest); every parton occurring is refuted (C49_false)."
 },
 "C50": {
  "note": "Exact leaf masks with an iff for when they are the descendant masks (C50_leaf); refuted in general (C50_false)."
 },
 "C63": {
  "note": "Exact effect for systems off the beam axis away from the tolerance (C63_rapidity, C63_massless, C63_false); experimental shift in full; array shifts raise TypeError (C63_array_false)."
 },
 "C64": {
  "note": "C64_nowarn for every input; C64_exact characterises the warning off the beam axis; refuted converse: C64_false."
 },
 "C78": {
  "note": "Relative to the contract of np.argpartition, for every permitted result. The documentation's orientation is refuted (C78_false)."
 },
 "C70": {
  "note": "Value and azimuth component exact, exact error term of the inclination component (C70_gradient); C70_false refutes that it vanishes."
 },
 "C76": {
  "note": "Exact domain of definition (C76_exact); refutation of the expectation C76_false."
 },
 "C75": {
  "note": "Exact effect of a rotation (C75_rotation); equivariance refuted (C75_false); nan case C75_beam."
 },
 "C81": {
  "note": "Exact round trip with an iff (C81_roundtrip); inversion refuted (C81_false, C81_softhard_false)."
 },
 "C84": {
  "note": "Random draws are parameters. Exact set of directions: upper hemisphere (C84_false, C84_covers)."
 },
 "C54": {
  "note": "Exact for all leaves (C54_any, C54_invert_any); the intended meaning holds when each leaf holds exactly one outgoing parton (C54_singlets, C54_invert); C54_misaligned exhibits the misalignment of names otherwise."
 },
 "C57": {
  "note": "Exact condition for returning (C57_returns_iff), optimality whenever it returns. Relative to the contract of scipy's linear_sum_assignment; every schedule of the parallel loops; exact arithmetic with nan/inf."
 },
 "C59": {
  "note": "Complete heap effect: C59_rapidity (all outcomes but ZeroDivisionError) and C59_failure. Refutation of the unconditional expectation: C59_false."
 },
 "C58": {
  "note": "Relative to the contract of scipy's linear_sum_assignment. Blacklist with empty whitelist acts as whitelist (C58_swapped, C58_false)."
 },
 "C85": {
  "note": "Complete account over all histories (C85_first_read, C85_later_read, C85_follows, C85_copy); refutation C85_false."
 },
 "C86": {
  "note": "The layout done by tabulate is not modelled. Events with edges but no particle data characterised by C86_false."
 },
 "C88": {
  "note": "Operands of one class in full; the failing combinations are characterised by C88_columns_false, C88_axis_false, C88_mixed_false. The universal function itself is a parameter."
 },
 "C92": {
  "note": "Proved; element equality is a parameter (so nan != nan is covered)."
 },
 "C96": {
  "note": "Proved in exact arithmetic with nan and infinities; schedule of the parallel loop is universally quantified."
 },
 "C97": {
  "note": "scipy.optimize.minimize is a parameter: an arbitrary adaptive strategy returning the best of the in-bounds points it evaluated."
 },
 "C98": {
  "note": "The edges being written in place are modelled as replacing the whole buffer by as many edges."
 },
 "C99": {
  "note": "A record is one cell; the converter's re-interpretation of odd shapes is C17/C18/C95."
 },
 "C100": {
  "note": "Strings lower by ASCII rules (no other character lowers to a letter of the three names)."
 },
 "C101": {
  "note": "The guides, wrapping and markup done by rich are not modelled, only the lines and their depth."
 },
 "C103": {
  "note": "The PDG table of mcpid is a parameter; properties(codes, columns) is assumed to return one new record per code."
 },
 "C106": {
  "note": "The expectation for all vertices is refuted (C106_false)."
 },
 "C107": {
  "note": "The mixin methods of collections.abc.MutableMapping are modelled from their documented source; the expectations of dict behaviour for popitem, setdefault and values() are refuted (C107_false)."
 },
 "C02": {
  "note": "Exact for all masks and operands (C02_eq_ne, C02_foreign). That any two masks of equal length can be compared is refuted (C02_false): MaskGroup == MaskArray and != between the two raise TypeError."
 },
 "C108": {
  "note": "Exact arithmetic; weights of three or more dimensions and the order of fields of structured weights are not modelled. The expectation of the documentation is refuted (C108_false)."
 },
 "C109": {
  "note": "The texts numpy prints for data and dtype are parameters."
 },
 "C110": {
  "note": "Same hypotheses as C51."
 },
 "C111": {
  "note": "The expectation that diagonal weights survive is refuted (C111_false)."
 },
 "C112": {
  "note": "Same hypotheses as C51. That ids and order never matter is refuted (C112_false_ties, C112_false_ids)."
 },
 "C113": {
  "note": "Exact for collinear splittings; a limit for soft emissions. Zero momentum is refuted (C113_false)."
 },
 "C114": {
  "note": "Over the reals; the condition on the energies is needed (C114_false)."
 },
 "C115": {
  "note": "Optimality inside the bounds is a hypothesis of C115_thrust, as in C97_global. For errors of spherocity refuted (C115_false)."
 },
 "C121": {
  "note": "Python lists of integers out of bounds (OverflowError or wrapping, by numpy version) are not modelled; conversions undefined in C are parameters."
 },
 "C122": {
  "note": "Given enough recursion depth. Arrays handed over are contiguous and boolean (others are copied, as values)."
 },
 "C129": {
  "note": "Boost invariance of partition_descendants is proved for massless momenta and refuted with a massive parton (C129_partition_boost_false)."
 },
 "C65": {
  "note": "Zeros without sign; with signed zeros the claims hold for nonzero transverse momenta, see C142 (C142_rotation, C142_false)."
 }
}