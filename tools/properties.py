#!/usr/bin/env python3
"""Source of /verif/properties.jsonl (run from /verif: python3 tools/properties.py)."""
import json
P = []
def p(i, title, statement, quant, why, anchors):
    P.append(dict(id=i, title=title, statement=statement, quantifier=quant,
                  why_tests_cant=why, anchors=anchors))
D = "graphicle/data.py"; S = "graphicle/select.py"; K = "graphicle/calculate.py"
M = "graphicle/matrix.py"; T = "graphicle/transform.py"

# ---------------------------------------------------------------- masks
p("C01", "Mask algebra is pointwise",
  "For two boolean masks of equal length, m1 & m2, m1 | m2 and ~m1 have that length and element i is the conjunction / disjunction / negation of elements i. A length-one operand is broadcast; any other pair of lengths raises ValueError instead of producing a mask.",
  "all masks of all lengths (including empty and mismatched lengths)",
  "needs every pair of masks at every length, including every mismatched pair",
  [f"{D}: MaskArray.__and__, __or__, __invert__; MaskGroup.__and__, __or__, __invert__"])
p("C02", "Mask == and != are elementwise and complementary",
  "m1 == m2 and m1 != m2 raise ValueError exactly when the lengths differ or the operand is no mask. For equal lengths element i of m1 == m2 says whether elements i agree, and m1 != m2 is its complement; but a MaskGroup against a MaskArray is TypeError, except MaskArray == MaskGroup.",
  "all pairs of masks / mask groups / boolean arrays",
  "needs all pairs of masks and all length mismatches",
  [f"{D}: _mask_eq, _mask_neq, _mask_compat, MaskArray.__eq__, __ne__, MaskGroup.__eq__, __ne__"])
p("C03", "Aggregate of a nested MaskGroup",
  "group.data at position i is True exactly when all (agg_op and) / at least one (agg_op or) of the children's own aggregates are True at i, recursively through any nesting; if every group in the tree is 'and' that means every leaf is True at i, if every group is 'or' that at least one leaf is. With agg_op 'none' reading data raises ValueError, an empty group has no aggregate (it raises), and children of different lengths raise.",
  "all nested groups of any depth, width and mask length, all positions",
  "nesting depth, width and mask length are unbounded",
  [f"{D}: MaskGroup.data, bitwise_and, bitwise_or"])
p("C04", "MaskGroup serialization round-trips",
  "MaskGroup(group.serialize()).equal_to(group) is True, also with check_order=True, for every nested group, and serializing the result gives the same serialized value.",
  "all nested groups with string keys, any depth",
  "the repository test samples ten random trees; the claim is over all of them",
  [f"{D}: MaskGroup.serialize, MaskArray.serialize, _mask_dict_convert, MaskGroup.equal_to"])
p("C05", "equal_to is structural equality",
  "a.equal_to(b) is True exactly when both have the same set of keys at every level (same order when check_order=True), agree at every key on whether it is a leaf or a group, and hold identical booleans at every leaf. It is reflexive, symmetric and transitive; check_order=True implies check_order=False. It does not look at agg_op.",
  "all pairs / triples of nested groups",
  "recursive property over unbounded trees; an equivalence law ranges over triples",
  [f"{D}: _maskgroup_equal, MaskGroup.equal_to"])
p("C06", "Serialization and aggregates",
  "MaskGroup(group.serialize()).data is, at every position, the conjunction of all leaf masks at any depth, whatever the agg_op of the groups were (serialize does not record agg_op); it equals group.data when every nested group uses 'and', and with the top-level agg_op passed explicitly when only the nested ones do. The natural expectation that it always equals group.data is refuted (C06_false).",
  "all nested groups",
  "depends on the agg_op of every group at every depth",
  [f"{D}: MaskGroup.serialize, _mask_dict_convert, MaskGroup.data"])
p("C07", "recursive_drop removes exactly the key",
  "After group.recursive_drop(key) no group at any depth has that key, every other path is kept with its mask, order and agg_op unchanged, and dropping again changes nothing.",
  "all nested groups, all keys",
  "unbounded depth; must hold at every level",
  [f"{D}: MaskGroup.recursive_drop"])
p("C08", "flatten('rise') lists every named mask",
  "group.flatten() is a group of plain masks only, whose keys are exactly the keys occurring at any depth on a path that does not pass through 'latent'; with pairwise distinct keys, each nested group appears under its own key as its aggregate, immediately followed by its own members, and each leaf appears unchanged; a repeated key stands at its first place in that order with its last mask. agg_op of the top level is kept.",
  "all nested groups",
  "recursive traversal over unbounded trees",
  [f"{D}: MaskGroup.flatten"])
p("C09", "flatten('agg') aggregates the top level only",
  "group.flatten('agg') has the same keys in the same order, leaves stay as they are, nested groups are replaced by their aggregate, and the result aggregates with 'or'.",
  "all nested groups",
  "unbounded trees",
  [f"{D}: MaskGroup.flatten"])
p("C10", "leaf_masks returns exactly the leaves",
  "select.leaf_masks(tree) / tree.flatten('leaves') is flat, keeps the tree's agg_op and, when leaf names are distinct, contains exactly the innermost masks reachable without passing through a nested 'latent' entry, in traversal order, each unchanged; a repeated name stands at its first place with its last leaf.",
  "all nested groups",
  "recursive traversal over unbounded trees",
  [f"{S}: leaf_masks, _leaf_mask_iter", f"{D}: MaskGroup.flatten"])
p("C11", "Slicing a group distributes over aggregation",
  "group[key].data equals group.data[key] for masks, integer sequences and slices, at any nesting, and slicing keeps every key and agg_op.",
  "all nested groups whose leaves have one length, all keys",
  "ranges over all trees and all index objects",
  [f"{D}: MaskGroup.__getitem__, MaskArray.__getitem__, MaskGroup.data"])
p("C12", "MaskGroup behaves as an insertion-ordered map",
  "After any history of item assignments, deletions and list-subscripts, looking a key up gives the mask last assigned to it and not deleted since, KeyError otherwise; keys iterate in order of first surviving insertion; len is the number of keys.",
  "all histories of assignments and deletions",
  "histories are unbounded",
  [f"{D}: MaskGroup.__setitem__, __delitem__, __getitem__, __len__, __iter__"])
p("C13", "copy() isolates",
  "After b = a.copy() for a MaskArray or nested MaskGroup, no history of in-place updates made through one of the two objects (item assignment on any leaf, adding or deleting keys) changes what the other one shows, and the copy initially shows the same masks.",
  "all object graphs without sharing cycles, all later update histories",
  "aliasing bugs show only in particular histories",
  [f"{D}: MaskArray.copy, MaskGroup.copy, MaskArray.__setitem__, MaskGroup.__setitem__, __delitem__"])
p("C14", "recursive_drop(inplace=False) leaves the original alone",
  "recursive_drop without inplace=True never changes the group it is called on nor any of its nested groups; with inplace=True it changes that group and its nested groups only.",
  "all object graphs and keys",
  "aliasing across unbounded nesting",
  [f"{D}: MaskGroup.recursive_drop, MaskGroup.copy"])
# ---------------------------------------------------------------- arrays
p("C15", "Array constructors accept exactly the right shapes",
  "PdgArray/MaskArray/StatusArray/HelicityArray accept scalars, flat arrays, single-column arrays and empty arrays (giving one record per element) and reject other 2-D input with ValueError; MomentumArray accepts (n,4) arrays and a flat array of 4, giving n (one) records in order; ColorArray/AdjacencyList accept (n,2) input; any other column count of a non-empty array raises ValueError.",
  "all input shapes and contents",
  "ranges over all shapes; boundary shapes such as (4,1), (0,k), () matter",
  [f"{D}: _array_field.converter, MomentumArray.__attrs_post_init__"])
p("C16", "Structured momenta are read by field name",
  "A structured array of momenta whose four fields are named by any of the accepted aliases (x/px, y/py, z/pz, e/pe/E), in any order, yields the same MomentumArray as the array with fields in x,y,z,e order; unknown or missing components raise KeyError. With more fields, all accepted names, each component is read from the last field naming it.",
  "all field orders and alias choices, all row contents",
  "24 orders times alias choices times unbounded data",
  [f"{D}: _reorder_pmu, _map_invert, _array_field.converter"])
p("C17", "Structured edges are read by field name",
  "A structured edge list with fields src/in and dst/out in either order yields the same AdjacencyList as (src,dst) order. With more fields, all accepted names, each end is read from the last field naming it; if some field has an accepted name, one that has not, or a missing end, raises KeyError (all this also for ColorArray).",
  "all field orders and aliases, all edge lists",
  "unbounded data",
  [f"{D}: _reorder_edges, _array_field.converter"])
p("C18", "Structured colors are read by position of their fields",
  "A structured array given to ColorArray is read column by column: its first field becomes the colors and its second the anticolors, whatever the two are called (names such as in/out/src/dst, which denote edges, aside). Hence fields in the order (anticolor, color) give the swapped array, which equals the intended one exactly when color = anticolor in every row. The natural expectation that fields are read by name is refuted (C18_false). Edges whose fields have none of the accepted names are read by column too; any other number of columns is ValueError, except that one field of two records makes one pair.",
  "all field orders, all rows", "all rows",
  [f"{D}: _array_field.converter, ColorArray"])
p("C19", "An integer subscript selects one record",
  "array[i] for an integer -n <= i < n holds record i (counting from the end when negative) and raises IndexError outside. For every class but ColorArray the result has length 1; for ColorArray it is a bare pair of length 2. The expectation that it always has length 1 is refuted (C19_false).",
  "all arrays and integers", "all indices at all lengths",
  [f"{D}: MaskArray.__getitem__, PdgArray.__getitem__, MomentumArray.__getitem__, ColorArray.__getitem__, AdjacencyList.__getitem__"])
p("C20", "Subscripts gather records",
  "array[mask] keeps exactly the records where the mask is True, in order, and raises IndexError exactly when lengths differ; array[ints] gathers the listed records (negative counts from the end) and raises IndexError if any is out of range; array[a:b:c] is Python slicing.",
  "all arrays, masks, integer lists and slices",
  "unbounded index objects",
  [f"{D}: *.__getitem__ (numpy indexing)"])
p("C21", "Successive masks compose",
  "array[m1][m2] equals array[m] where m is m1 with its True positions replaced by m2; in particular array[m1 & m2] equals array[m1][m2[m1]], and masks commute.",
  "all arrays and masks", "unbounded",
  [f"{D}: *.__getitem__, MaskArray.__and__"])
p("C22", "PdgArray.mask selects or removes the target codes",
  "pdg.mask(target, blacklist=False, sign_sensitive=True) is True exactly where the code is in target; blacklist=True gives the complement; with sign_sensitive=False it is True exactly where |code| is in target as listed, so a code matches through non-negative targets only (for codes other than -2^31, whose 32-bit absolute value overflows). The natural expectation that a negative target matches its particle and antiparticle is refuted (C22_false).",
  "all code arrays, all targets, all flags", "all subsets of codes",
  [f"{D}: PdgArray.mask"])
p("C23", "StatusArray.in_range is an inclusive range test",
  "in_range(lo, hi) is True exactly where lo <= |status| <= hi (signed status when sign_sensitive), hi=None meaning unbounded; the int16 absolute value of -32768 is -32768. Default arguments accept every status except exactly -32768. The expectation that they accept every status is refuted (C23_false).",
  "all status arrays of 16-bit codes and all bounds", "all 65536 codes and all bounds",
  [f"{D}: StatusArray.in_range"])
p("C24", "hard_mask categorises the hard process",
  "status.hard_mask has the four categories in order, each True exactly where |status| is 21, 22, 23, 24; they are pairwise disjoint, and the group's aggregate is True exactly where |status| is in 21..24.",
  "all status arrays", "all arrays",
  [f"{D}: StatusArray.hard_mask"])
# ---------------------------------------------------------------- composite
p("C25", "Subscripting an event keeps its columns aligned",
  "graph[key] / particles[key] applies one and the same selection to every non-empty attribute (pdg, pmu, color, helicity, status, final, edges), leaves empty attributes empty, and raises IndexError if any non-empty attribute has a length the mask does not match; so record k of the result is one and the same record of the original in every attribute.",
  "all events with any subset of attributes present, all keys",
  "all combinations of present attributes and all selections",
  [f"{D}: _composite_getitem, _nonempty_dsets, ParticleSet.__getitem__, Graphicle.__getitem__"])
p("C26", "Length and truth of an event",
  "len(graph) is the length of its first non-empty attribute (0 if none) and bool(graph) is True exactly when some attribute is non-empty; when all non-empty attributes have n records, len is n. graph[mask] has as many records as mask has True values.",
  "all events", "all combinations of attributes",
  [f"{D}: _composite_len, _composite_bool"])
p("C27", "copy() reproduces an event but for edge weights",
  "graph.copy(), particles.copy() and adj.copy() hold the same data as the original in every attribute except edge weights, which adj.copy() and every subscript of an AdjacencyList drop; the copy equals the original exactly when there were no weights. The natural expectation that weights are copied is refuted (C27_false).",
  "all events", "all events",
  [f"{D}: _composite_copy, AdjacencyList.copy, AdjacencyList.__getitem__"])
p("C28", "What == on particle sets decides",
  "a == b for two ParticleSet objects is truthy exactly when all attributes of both are filled and have comparable numbers of records, raises ValueError exactly when an attribute with incomparable numbers is met before one that is empty, and is falsy otherwise; it is decided by the sizes of the attributes alone, never by their contents. The natural expectation that it compares contents is refuted (C28_false): distinct sets of equal nonzero length compare equal, and a set with an empty attribute is not equal to itself.",
  "all pairs of particle sets", "all pairs",
  [f"{D}: ParticleSet (attrs-generated __eq__), _array_eq, _truthy"])
p("C29", "LHE status codes are translated simultaneously",
  "ParticleSet.from_lhe_event maps each status -1,1,-2,2,3,-9 to -21,-23,-22,-22,-22,-12 and leaves all others, independently of the order of the rewrites; final is all False with one entry per particle; other attributes are taken over unchanged.",
  "all LHE records", "all status arrays",
  [f"{D}: ParticleSet.from_lhe_event"])
p("C30", "Effect of from_lhe_event on the event",
  "ParticleSet.from_lhe_event leaves every array of the event as it was, except that an int16 status array is shared with the result and overwritten with the rewritten codes. The natural expectation that the event is never modified is refuted (C30_false).",
  "all LHE records and dtypes", "aliasing depends on dtype",
  [f"{D}: ParticleSet.from_lhe_event, _array_field.converter"])
p("C31", "from_event takes every attribute the event offers",
  "Graphicle.from_event(event) equals from_numpy of exactly the interface attributes the event has (final falling back to event.masks['final']), and every attribute not offered is empty; from_numpy puts each array into the attribute of the same name.",
  "all subsets of offered attributes", "2^7 subsets times data",
  [f"{D}: Graphicle.from_event, Graphicle.from_numpy, ParticleSet.from_numpy"])
p("C32", "Serialized events can be restored",
  "from_numpy applied to the values of graph.serialize() (adj as edges) restores every attribute of the graph except edge weights.",
  "all events", "all events",
  [f"{D}: ParticleSet.serialize, Graphicle.serialize, *.serialize"])
# ---------------------------------------------------------------- adjacency
p("C33", "nodes lists every vertex once, by magnitude",
  "adj.nodes contains exactly the vertex ids occurring in some edge, each once, ordered by non-decreasing absolute value; only the lowest 32-bit integer, whose absolute value wraps to itself, comes first (C33_false).",
  "all edge lists, including ids of both signs", "all edge lists",
  [f"{D}: AdjacencyList.nodes"])
p("C34", "roots and leaves are characterised by degrees",
  "adj.roots is True at an edge exactly when no edge ends in its source vertex; adj.leaves exactly when no edge starts from its destination. Both have one entry per edge. In a non-empty acyclic graph both select at least one edge.",
  "all non-empty edge lists", "all graphs",
  [f"{D}: AdjacencyList.roots, leaves, to_sparse, _edge_relabel"])
p("C35", "adj.matrix counts edges",
  "adj.matrix is square with one row per vertex id in ascending order; entry (i,j) is the number of edges from vertex i to vertex j, so entries sum to the number of edges.",
  "all non-empty edge lists with repeated edges and arbitrary ids", "all multigraphs",
  [f"{D}: AdjacencyList.matrix, to_sparse, _edge_relabel"])
p("C36", "from_matrix inverts matrix, up to isolated nodes",
  "AdjacencyList.from_matrix(A) has an edge (i,j) exactly where A is nonzero, in row-major order; self_loop=True yields exactly one self-loop per node; from_matrix(A).matrix is A without the rows and columns of nodes that have no edge (ValueError if that leaves none), so the round trip restores a 0/1 matrix A exactly when every node has an edge. The expectation that it always does is refuted (C36_false).",
  "all square matrices", "all matrices",
  [f"{D}: AdjacencyList.from_matrix, matrix"])
p("C37", "Relabelling preserves the graph",
  "to_sparse numbers the vertices 0..n-1 by ascending id; two edges share an endpoint before relabelling exactly when they do after it, and edge order is kept.",
  "all edge lists", "all graphs",
  [f"{D}: AdjacencyList._edge_relabel, to_sparse"])
p("C38", "Weighted matrix sums weights",
  "With one weight per edge, adj.matrix entry (i,j) is the sum of the weights of the edges from i to j; from_matrix(A, weighted=True).matrix equals A when no node is isolated.",
  "all weighted edge lists", "all",
  [f"{D}: AdjacencyList.matrix, _sparse_weighted, from_matrix"])
# ---------------------------------------------------------------- select
p("C39", "vertex_descendants is reachability",
  "If some edge starts from the vertex, vertex_descendants(adj, v) is True at an edge exactly when its source is v or can be reached from v along edges; otherwise it is True exactly at the edges ending in v. It terminates on every graph, also cyclic ones.",
  "all edge lists and vertices", "all graphs, including cycles",
  [f"{S}: vertex_descendants"])
p("C40", "edge_descendants adds the edge itself",
  "edge_descendants(adj, (u,v)) is vertex_descendants(adj, v) with every edge equal to (u,v) set True.",
  "all edge lists and edges", "all graphs",
  [f"{S}: edge_descendants", f"{D}: _array_eq_prep"])
p("C41", "hadron_vertices finds hadronisation vertices",
  "hadron_vertices(adj, status) lists, without repetition, exactly the source vertices of edges with 80 <= |status| <= 90.",
  "all events", "all events", [f"{S}: hadron_vertices"])
p("C42", "find_vertex matches in and out codes",
  "find_vertex(graph, pdgs_in, pdgs_out) lists in ascending order, without repetition, exactly the vertices whose incoming particle codes include pdgs_in and whose outgoing codes include pdgs_out (a missing argument constrains nothing); with both missing it raises ValueError.",
  "all events and code sets", "all",
  [f"{S}: find_vertex"])
p("C43", "Parton keys are unique",
  "The keys given to hard partons (hard_descendants, hierarchy, monte_carlo_tag) are pairwise different, one per parton in order, equal to the particle name if it is unique among them and name:n with n counting its earlier occurrences otherwise, provided names contain no colon.",
  "all lists of particle names", "any multiplicity pattern",
  [f"{S}: _pdgs_to_keys"])
p("C44", "hard_descendants marks parton and descendants",
  "hard_descendants(graph) has one mask per non-incoming hard parton, in record order; mask k is True exactly at the parton itself, at edges whose source is reachable from the parton's end vertex, or, if nothing leaves that vertex, at the edges ending there.",
  "all events", "all events",
  [f"{S}: hard_descendants, vertex_descendants"])
p("C45", "Which records hard_descendants marks for a target",
  "With target given, the k-th mask is True exactly at the record of the k-th parton of the unfiltered hard process and at the descendants of the k-th matching parton; in an acyclic event it marks exactly the matching parton and its descendants if and only if that is also the k-th of the whole process (or that one enters the same vertex, from which nothing emerges), in particular when the matching partons are the first of the hard process. The natural expectation that it always marks the targeted parton is refuted (C45_false).",
  "all events and targets", "needs targets other than the first partons",
  [f"{S}: hard_descendants"])
p("C46", "hard_descendants reports missing targets",
  "With target given, it raises ValueError when no hard parton matches, and under strict=True when some target code has no match; otherwise it returns one mask per matching parton.",
  "all events, targets and flags", "all",
  [f"{S}: hard_descendants", f"{D}: PdgArray.mask"])
p("C47", "hierarchy gives each parton its closest ancestor",
  "In the parent/child structure used by hierarchy, each hard parton that has a hard ancestor is listed under exactly one parent: the ancestor with the fewest hard descendants (first in record order on ties); partons without ancestors are under none. If descent is a forest order, the parent is the immediate predecessor.",
  "all ancestor relations, any size", "all boolean matrices; in-place row updates in data-dependent order",
  [f"{S}: _hard_parent_matrix, _hard_parent_dict, _flat_hierarchy, _hard_ancestor_matrix"])
p("C48", "hierarchy groups aggregate to the parton's descendants",
  "For every parton with nested children in hierarchy(graph), the aggregate of its group is the parton's own descendant mask joined with its children's; if the children's masks lie inside it, the aggregate is exactly the parton's descendant mask and 'latent' is exactly the part not covered by the children. Without an intermediate hard parton the result is the flat group of descendant masks. Descendant masks passed by the caller are used in the same way; one of another length than the event raises IndexError, one missing for a hard parton KeyError.",
  "all flat hierarchies (forests) and descendant masks", "any tree shape",
  [f"{S}: _make_tree, hierarchy"])
p("C49", "Which hard partons occur in hierarchy",
  "A non-incoming hard parton occurs as a key in hierarchy(graph) of a process with an intermediate state exactly when it has a hard ancestor or is the parent of another hard parton; in forest-like processes exactly when it is an ancestor or a descendant of another hard parton. The natural expectation that every hard parton occurs is refuted (C49_false).",
  "all acyclic events with an intermediate state whose final hard partons do not share their end vertex", "all",
  [f"{S}: hierarchy, _make_tree"])
p("C50", "Leaf masks of hierarchy",
  "In hierarchy(graph) the mask of an outgoing parton without nested children is True exactly at the parton's hard_descendants and at the particle entering the source vertex of the first of these, when exactly one enters; it is exactly the hard_descendants mask if and only if that particle is already among them. The natural expectation that it always is, is refuted (C50_false).",
  "all events", "all",
  [f"{S}: _make_tree, hard_descendants"])
p("C51", "partition_descendants assigns each hadron to its nearest parton",
  "After processing a hadronisation vertex, a leaf mask having a parton incident on the vertex is True at a final particle descending from the vertex exactly when it was True at the incident parton nearest to that particle (first on ties); hence leaves with no common incident parton share no such particle, and if every incident parton belongs to some leaf, each such particle is in some leaf. This is for events whose final particles enter no hadronisation vertex; for all others it is false (C51_false), and what holds is that each leaf goes through the hadronisation vertices that the tree as given enters, by ascending id, each assigning by the values the ones before left.",
  "all masks, trees, events and distances; C51_any also events whose final particles enter hadronisation vertices", "all",
  [f"{S}: _partition_vertex, partition_descendants"])
p("C52", "partition_descendants changes final descendants only",
  "partition_descendants changes no entry of any mask other than final particles descending from a hadronisation vertex on which the mask is incident (if final particles themselves enter hadronisation vertices: on which some mask of the tree is incident, and a mask incident on none of them does not change), keeps the tree's keys, lengths and 'latent' masks, and does not modify its input (C117).",
  "all events and hierarchies", "all",
  [f"{S}: partition_descendants, _partition_vertex, _hadron_vtx_parton_iter"])
p("C53", "any_overlap",
  "any_overlap raises AttributeError for every MaskGroup (it reads an attribute the class does not have); given an object that has the attribute it reads, it is True exactly when two of the masks are True at a common position (TypeError for fewer than two masks; nothing but ValueError for more, and only if their lengths differ). The natural expectation that it works on a MaskGroup is refuted (C53_false).",
  "all groups", "all groups", [f"{S}: any_overlap"])
p("C54", "color_singlets groups color-neutral partons",
  "With exactly one outgoing hard parton per leaf, color_singlets lists, in combination order, exactly the pairs and triples of colored leaves whose set of colors equals their set of anticolors; with invert=True exactly the colored leaves in no such group, each once.",
  "all leaf groups and colors", "all",
  [f"{S}: color_singlets"])
p("C55", "centroid_prune keeps near particles only",
  "centroid_prune(pmu, R, mask, centre) is True only where mask is, exactly at masked particles whose distance to the centre is strictly below R; so a larger radius never removes a particle and R <= 0 keeps none. Its length is that of mask (of pmu without one). It raises ValueError exactly for an object that is not a MomentumArray and IndexError exactly for a mask of another length.",
  "all momenta, masks, centres, radii", "all",
  [f"{S}: centroid_prune, _param_check"])
p("C56", "fastjet_clusters orders, cuts and truncates",
  "Given the jets found by FastJet, the result has one mask per jet with |eta| < eta_cut, by non-increasing pt, at most top_k of them and no lower-pt jet in place of a higher one; each mask is True exactly at the jet's constituents and has one entry per input particle; if constituents are disjoint so are the masks. Negative pt_cut, radius, eta_cut or top_k < 1 raise ValueError.",
  "all jet collections and parameters", "all",
  [f"{S}: fastjet_clusters"])
p("C57", "arg_closest assigns distinct candidates at minimal cost",
  "For a non-empty set of candidates arg_closest(focus, candidate) returns a result exactly when the thread count is admissible, all distances are finite, and neither the candidates' transverse momenta nor any focus element's distances to them are all equal; the result then consists of min(len(focus), len(candidate)) distinct candidate indices whose total cost no other assignment beats, with entry i belonging to focus i when there are at least as many candidates; costs lie in [0,2), vanish exactly for agreeing position and pt, and grow with both differences. With equal pts (e.g. a single candidate) it raises ZeroDivisionError.",
  "all focus and candidate momenta, thread counts, schedules of the parallel loops, cache states", "all",
  [f"{S}: arg_closest", f"{K}: _assignment_cost"])
p("C58", "monte_carlo_tag maps partons to clusters",
  "Whenever monte_carlo_tag returns, it gives one cluster per selected hard parton under that parton's key in record order, different partons getting different clusters, at minimal total cost; it returns whenever the arguments pass the documented checks, a parton is selected and the assignment is not degenerate; blacklist removes and whitelist keeps exactly the listed codes, except that a blacklist combined with an empty whitelist acts as a whitelist; the documented errors are raised in the documented situations, and with no parton and no list it raises TypeError (unless the clusters' transverse momenta are all equal, which raises ZeroDivisionError). The expectation that a blacklist always removes is refuted (C58_false).",
  "all events, masks and filters", "all",
  [f"{S}: monte_carlo_tag"])
p("C59", "arg_closest and the rapidities of its arguments",
  "After arg_closest(focus, candidate) returns or raises anything but ZeroDivisionError, the rapidities of all arrays read as before the call and no record changed, also when the two arguments are the same object; after a ZeroDivisionError candidate.rapidity reads the candidates' transverse momenta, and nothing else changed. The expectation that nothing changes even then is refuted (C59_false).",
  "all momenta, all cache states before the call", "in-place reuse of a cached buffer",
  [f"{S}: arg_closest", f"{K}: _assignment_cost", f"{D}: MomentumArray.rapidity"])
p("C60", "clusters returns masks over the final particles",
  "Every mask in select.clusters(graph, radius) has one entry per final particle, the group aggregates with 'or' and no key is 'latent'; leaf masks contain only particles of the partitioned leaf, and for color-connected-to-background leaves only those within radius of their hard parton.",
  "all events", "all",
  [f"{S}: clusters"])
# ---------------------------------------------------------------- calculate
p("C61", "shift_rapidity is a longitudinal Lorentz boost",
  "In exact arithmetic p.shift_rapidity(s) increases the rapidity of every timelike particle by s, leaves px, py, pt, mass, transverse mass and all Minkowski products unchanged, composes additively (shift a then b is shift a+b), is undone by -s, and commutes with summing momenta.",
  "all momenta and shifts (reals)", "continuum of inputs",
  [f"{D}: MomentumArray.shift_rapidity, rapidity, mass, mass_t", f"{K}: _rapidity, _root_diff_two_squares"])
p("C62", "shift_phi is an azimuthal rotation",
  "In exact arithmetic shift_phi(s) leaves pt, pz, energy, mass unchanged, adds s to the azimuth modulo 2 pi, composes additively, is undone by -s, has period 2 pi and preserves azimuthal differences between particles.",
  "all momenta and shifts", "continuum",
  [f"{D}: MomentumArray.shift_phi, phi, _xy_pol"])
p("C63", "What shift_eta shifts",
  "In exact arithmetic, for a system off the beam axis with pseudorapidity eta (and E-|pz| above the tolerance before and after), p.shift_eta(s) boosts all particles so that the summed momentum has rapidity eta + s, however many corrections are allowed, or does nothing if |s| <= abs_tol; so its pseudorapidity is eta + s for massless systems or target zero and for no other. With experimental=True each particle off the beam axis has its pseudorapidity increased by s with pt unchanged. Array shifts raise TypeError unless experimental. The natural expectation that the pseudorapidity increases by s is refuted (C63_false).",
  "all momenta, shifts and iteration counts", "continuum; the repository test uses one massless particle",
  [f"{D}: MomentumArray.shift_eta", f"{K}: resultant_coords"])
p("C64", "When shift_eta warns",
  "If no NumericalStabilityWarning is issued the returned momenta are within abs_tol of the target, for every input; for systems off the beam axis (as in C63) it is issued exactly when they are not, or when a correction was needed and max_corrections=1. The expectation that it is issued only when the target is missed is refuted (C64_false).",
  "all momenta, tolerances and iteration counts", "all loop lengths",
  [f"{D}: MomentumArray.shift_eta"])
p("C65", "delta_R is a symmetric distance",
  "delta_R is non-negative, symmetric (delta_R(a,b) is the transpose of delta_R(b,a)), zero between equal momenta, unchanged by a common azimuthal rotation and a common shift in rapidity, at most pi in azimuth, and satisfies the triangle inequality for particles with nonzero pt.",
  "all momenta incl. infinite rapidities", "continuum; triples",
  [f"{K}: _delta_R, _delta_R_symmetric", f"{D}: MomentumArray.delta_R"])
p("C66", "Parallel delta_R is schedule-independent and agrees with the serial one",
  "For every interleaving of the parallel loop iterations, delta_R computes the same matrix, each cell is written exactly once, and delta_R(p, p) (the symmetric routine) equals delta_R(p, p.copy()) (the general one).",
  "all schedules / interleavings, all sizes, all rapidities incl. nan and inf", "schedules cannot be enumerated",
  [f"{K}: _delta_R, _delta_R_symmetric"])
p("C67", "mass and combined_mass agree with the Minkowski norm",
  "In exact arithmetic mass satisfies mass*|mass| = E^2-|p|^2; mass_t*|mass_t| = E^2-pz^2; combined_mass(p) is max(0, mass of the summed momentum), hence non-negative, and invariant under reordering, boosts and rotations.",
  "all momenta", "continuum",
  [f"{K}: _root_diff_two_squares, combined_mass", f"{D}: MomentumArray.mass, mass_t"])
p("C68", "aggregate_momenta sums clusters",
  "aggregate_momenta(p, masks) has one momentum per mask, in order, equal to the sum of the selected particles; for masks forming a partition the aggregates add up to the total momentum; a mask of the wrong length raises IndexError.",
  "all momenta and mask lists", "all",
  [f"{K}: aggregate_momenta"])
p("C69", "The thrust objective is bounded and its gradient is right",
  "For every axis, the thrust value lies in [0,1], does not change under overall scaling or reordering of momenta, and the returned gradient is its derivative with respect to the azimuth and inclination wherever no particle is perpendicular to the axis.",
  "all nonzero momenta and axes", "continuum",
  [f"{K}: _thrust_with_grad, _three_norm, thrust"])
p("C70", "The spherocity objective's gradient",
  "For every axis no particle is parallel to, the azimuth component of the gradient returned with the spherocity value is its derivative, and the inclination component differs from the derivative by exactly the sum of the terms in which x*y stands for x*z. The natural expectation that it is the derivative is refuted (C70_false).",
  "all momenta and axes", "continuum",
  [f"{K}: _spherocity_with_grad"])
p("C71", "c_parameter is the C-parameter",
  "In exact arithmetic c_parameter equals 3/2 * sum_ij (|pi||pj| - (pi.pj)^2/(|pi||pj|)) / (sum |p|)^2, lies in [0,1], vanishes for collinear momenta, and is unchanged by reordering, scaling and rotating.",
  "all non-empty sets of nonzero momenta", "continuum",
  [f"{K}: _c_parameter, _three_norm"])
p("C72", "jaccard_distance is a metric on masks",
  "With non-negative weights jaccard_distance lies in [0,1], is symmetric, zero for equal masks (only for equal ones when weights are positive) and satisfies the triangle inequality; without weights it is |symmetric difference| / |union|, 0 for two empty masks.",
  "all masks of a common length, all weights", "triples of masks at all lengths",
  [f"{K}: _jaccard_distance, jaccard_distance"])
p("C73", "Clustering coefficients are fractions",
  "Each coefficient is in [0,1] and equals the fraction of ordered pairs of neighbours that are adjacent, 0 for fewer than two neighbours; a complete graph gives 1 everywhere.",
  "all symmetric adjacency matrices with empty diagonal", "all graphs",
  [f"{K}: _clust_coeffs, cluster_coeff_distbn"])
p("C74", "The thread count is restored",
  "After delta_R, cluster_coeff_distbn or arg_closest, normally or by an exception (including an invalid thread count), the global numba thread count is what it was before; nested uses restore in order.",
  "all nesting structures, all exceptions", "every exception point",
  [f"{K}: _thread_scope"])
p("C75", "weighted_centroid under azimuthal rotations",
  "Rotating all momenta by s leaves the rapidity component of weighted_centroid unchanged and moves its azimuth, modulo 2 pi, by s plus 2 pi times the pt-weighted mean of the numbers of turns by which the rotated azimuths are brought back into (-pi, pi]; so by s when no particle crosses +-pi. The rapidity component lies between the smallest and largest rapidity, the azimuth is nan if one particle has pt within the tolerance. The natural expectation that the azimuth always moves by s is refuted (C75_false).",
  "all momenta", "continuum; wrap-around configurations",
  [f"{K}: weighted_centroid"])
p("C76", "When event shapes are defined",
  "thrust and C-parameter values exist exactly when there is a particle and none is at rest, the spherocity for an axis exactly when moreover none is parallel to it; otherwise ZeroDivisionError is raised. The norm used is the Euclidean norm, failing exactly at zero. The natural expectation that they exist for every non-empty set is refuted (C76_false).",
  "all momenta", "degenerate inputs",
  [f"{K}: _three_norm, _thrust_with_grad, _spherocity_with_grad, _c_parameter"])
# ---------------------------------------------------------------- matrix
p("C77", "cut_adj thresholds affinities",
  "Off the diagonal, cut_adj has an edge exactly where the affinity is strictly below ('max') / above ('min') the cut, carrying the affinity when weighted; nan affinities are no edges; the diagonal is 0 with self_loop=False and 1 otherwise; other modes, and a weighted that is neither True nor False, raise ValueError; symmetric input gives symmetric output; a larger cut never removes a 'max' edge. What is false: that flags go by their truth value (self_loop=0 or numpy.False_ adds the loops).",
  "all matrices, square or not, of numbers with infinities and nan, cuts, and flags of any type", "all",
  [f"{M}: cut_adj"])
p("C78", "knn_adj has k nearest neighbours per node",
  "For k, plus one with self_loop=False, a position of the axis (from either end), knn_adj(A, k) has, for each node j, edges exactly to a set of that many nodes nearest to j by the affinities in column j, other than j itself without self_loop; they are in column j for row=True and in row j for row=False; hence exactly k edges per node with self_loop, or when the node itself is strictly nearest. Otherwise (unless there are no nodes), or for weighted edges of a non-floating dtype, it raises ValueError. The documentation's reading of row is refuted (C78_false), and so is the expectation of exactly k edges for distances between coincident particles (C78_ties_false).",
  "all square matrices over a linear order (nan last), all integers k, flags of any type, every valid partition order", "all; argpartition is non-deterministic",
  [f"{M}: knn_adj"])
p("C79", "fc_adj is the complete graph",
  "fc_adj(n) is n by n with zeros on the diagonal with self_loop=False (ones with any other self_loop) and ones elsewhere; negative n raises ValueError.",
  "all integers n, all dtypes with a 0 and a 1, flags of any type", "all n", [f"{M}: fc_adj"])
# ---------------------------------------------------------------- transform
p("C80", "rotation_matrix is a rotation about the axis",
  "In exact arithmetic rotation_matrix(a, axis) is orthogonal with determinant 1, fixes the axis vector, is additive in the angle (R(a)R(b)=R(a+b), R(0)=1, R(-a)=R(a)^T) and turns vectors orthogonal to the axis by exactly a.",
  "all angles and axes", "continuum",
  [f"{T}: rotation_matrix, _angles_to_axis, _cos_sin", f"{K}: _angles_to_axis"])
p("C81", "Axis/angle conversions",
  "Converting a nonzero axis (x,y,z) with azimuth phi, transverse length t and length l to angles and back gives (z/l cos phi, z/l sin phi, t/l), which is the normalised axis exactly when t = z; angles always denote a unit vector. soft_hard_axis gives the elevation and azimuth of the cross product of the 3-momenta of the first softest and the first hardest particle, and raises ValueError without particles. The natural expectation that the conversions invert each other, and that soft_hard_axis denotes the normal of the soft-hard plane, is refuted (C81_false, C81_softhard_false).",
  "all axis vectors", "continuum",
  [f"{T}: _axis_to_angles, _angles_to_axis, soft_hard_axis"])
p("C82", "split_momentum conserves four-momentum",
  "The two children of split_momentum(p, z, angle, axis) add up exactly (in exact arithmetic) to p; the first has energy z*E and 3-momentum magnitude z*|p|, hence mass z*mass(p); more than one input momentum raises ValueError.",
  "all momenta, fractions, angles and axes", "continuum",
  [f"{T}: split_momentum"])
p("C83", "split_hardest splits one particle and keeps the rest",
  "split_hardest keeps all particles but the first one of maximal pt, in order, followed by its two children; the total four-momentum is conserved and the length grows by one; z outside (0, 0.5], or a missing axis with fewer than two particles, raises ValueError.",
  "all momenta sets, fractions, angles, axes", "continuum, all lengths",
  [f"{T}: split_hardest, split_momentum"])
p("C84", "from_spherical_uniform draws physical momenta over the upper hemisphere",
  "For every outcome of the random draws each momentum has 0 <= |p| <= E <= max_energy (|p| = E for massless ones) and pz >= 0, and every direction with z >= 0 is produced by some draw; a massless probability outside [0,1] raises ValueError. The natural expectation that directions cover the whole sphere is refuted (C84_false).",
  "all random draws", "all draws, not a sample",
  [f"{D}: MomentumArray.from_spherical_uniform"])
# ---------------------------------------------------------------- misc
p("C85", "What derived quantities show after writes",
  "After any history of reads and writes, the first read of eta, phi, mass, ... combines the current data with the moduli of the data at the time a quantity using them was first read, and every later read repeats it; so a read gives the value of the current data as long as no write follows the first read of that quantity (or of another one sharing the modulus), and for every fresh copy and selection. The natural expectation that reads always follow the data is refuted (C85_false).",
  "all histories of reads, writes and copies", "histories are unbounded",
  [f"{D}: MomentumArray (functools.cached_property), MomentumArray.data setter, copy"])
p("C86", "Printed tables show head and tail",
  "The table shown for an event with particle data and n records per attribute has n rows if n <= 60, otherwise 11: the first five, an ellipsis row, the last five; rows hold the values of the record, columns are those of the attributes present, and the line below states the true n. An event with edges only shows no record at all, only the line below (and the ellipses if n > 60); the expectation that it shows its edges is refuted (C86_false).",
  "all events, all record counts", "all n",
  [f"{D}: _table_repr, ParticleSet._table_list, Graphicle._table_str"])
p("C87", "PdgArray.from_name inverts name",
  "PdgArray.from_name(names).name equals names when every name is listed exactly once in the table, and unknown names raise ValueError; codes are those the table lists under the name.",
  "all name lists, all lookup tables with unique names", "all",
  [f"{D}: PdgArray.from_name, PdgArray.name"])
p("C88", "numpy functions keep or drop the wrapper",
  "Applying a numpy ufunc to arrays of one graphicle class returns a MaskArray for boolean array results with one column, a bare scalar/array for scalar results or axis=1 reductions, None for 'at', and an instance of the same class otherwise (with the class's dtype); unsupported operand types raise TypeError, so a wrapper of the wrong class is never returned. Boolean results of several columns raise ValueError (C88_columns_false), axis=-1 reductions of momenta are refused or, for four, taken for a momentum (C88_axis_false), and arrays of two classes cannot be mixed (C88_mixed_false), which refutes the natural expectations.",
  "all ufunc results", "all combinations",
  [f"{D}: _array_ufunc"])

p("C89", "Derived kinematic quantities have their textbook meaning",
  "In exact arithmetic pt, phi, theta, eta and rapidity are the transverse momentum, azimuth in (-pi, pi], polar angle in [0, pi], pseudorapidity and rapidity of each momentum: px = pt cos(phi), py = pt sin(phi), pz = |p| cos(theta) = pt sinh(eta) = mT sinh(y), E = mT cosh(y); eta is +-inf exactly along the beam and nan for zero momentum, phi is nan where pt is within the tolerance, rapidity is +-inf where E-|pz| is within it, and for E-|pz| below minus the tolerance it is nan if |E| < |pz|, +-inf if E = -|pz| and that of the record with energy |E| if E < -|pz|.",
  "all real four-momenta, all tolerances", "all momenta",
  [f"{D}: MomentumArray.pt, eta, rapidity, phi, theta", "graphicle/calculate.py: _rapidity"])

p("C90", "Thrust and spherocity search boxes reach every axis",
  "Thrust and spherocity restrict both angles to [-pi/2, pi/2]. Every direction, or its opposite, is the axis of some pair of angles in that box, and the value computed for an axis equals that computed for its opposite, so restricting the search loses no candidate axis.",
  "all unit vectors, all momenta, all pairs of angles", "all directions",
  ["graphicle/calculate.py: thrust, spherocity, _angles_to_axis"])

p("C91", "resultant_coords is equivariant",
  "Rotating all momenta by s moves the azimuth returned by resultant_coords by s modulo 2 pi (nan stays nan) and leaves the rapidity; boosting all momenta by s leaves the azimuth and moves the true rapidity by s.",
  "all momenta, rotations and boosts", "continuum",
  ["graphicle/calculate.py: resultant_coords"])

# ---------------------------------------------------------------- comparison, iteration, assignment
p("C92", "Comparing arrays with == is record by record",
  "For PdgArray, StatusArray, HelicityArray, MomentumArray and ColorArray, a == b of two arrays of one class with equally many records (or one record on one side) is the mask telling for each pair of records whether all components are equal; other lengths raise ValueError. a != b is its complement and fails exactly when a == b does. Momenta and colours can also be compared with one record given as a sequence of numbers, plain-number classes with a number. The mask is all True exactly when the records are the same.",
  "all arrays, all lengths, all operands", "all lengths and contents",
  [f"{D}: _array_eq_prep, _array_eq, _array_ne, __eq__, __ne__"])
p("C93", "Comparisons that always fail",
  "Comparing momenta, colours or edges with any ndarray, number or unrelated object raises ValueError, and so does comparing them with a list of records, even with the list of their own records, unless one record is compared with as many records as it has components (codes, helicities and statuses just differ from unrelated objects and from all records of a structured array, broadcast lengths permitting). Comparing two AdjacencyLists raises ValueError except for one edge against two, which gives a mask of length two. No comparison of records raises anything else. Hence == of two events whose particle data compare truthy raises ValueError unless one has a single edge and the other two.",
  "all arrays, edge lists and events", "all lengths and contents",
  [f"{D}: _array_eq_prep, AdjacencyList, Graphicle.__eq__"])
p("C94", "Iteration gives the records in order",
  "Iterating over an array of n records, or calling serialize, gives n tuples, tuple i holding the components of record i, which is the record array[i] selects. An array of a class with several components holding one flat record (ColorArray([c, a]), color[i], AdjacencyList([s, d])) cannot be iterated over: TypeError.",
  "all arrays of all classes", "all lengths",
  [f"{D}: ArrayBase.__iter__, serialize"])
p("C95", "Assigning data converts like the constructor",
  "array.data = values (plain or structured) succeeds exactly when constructing the class from values does and then holds the same records; otherwise it raises the same exception and leaves the array unchanged. AdjacencyList.data cannot be assigned (AttributeError). A flat four-vector assigned to a MomentumArray is stored flat, so its length is 4, unlike after construction.",
  "all values of all shapes, all classes", "all shapes",
  [f"{D}: data setters"])
p("C96", "parton_hadron_distance and the real partition distance",
  "Entry (i, j) of parton_hadron_distance(partons, hadrons, pt_exp) is pt_i ** pt_exp times the Delta R of parton i and hadron j, for every schedule of the parallel loop; delta_R_aff is the symmetric matrix of Delta R with zero diagonal. With a negative exponent harder partons in the same direction are nearer; a parton at rest has distance nan to all hadrons and so claims every one it may claim. partition_descendants assigns each hadron to the parton of least weighted distance, nan counting as least.",
  "all momenta, exponents, schedules, trees", "continuum, all schedules",
  ["graphicle/matrix.py: parton_hadron_distance, delta_R_aff", "graphicle/select.py: partition_descendants"])
p("C97", "thrust and spherocity return values of the event shape along the axis found",
  "For every optimiser that returns the best of the in-bounds points it evaluated, thrust returns the thrust along a unit axis (the one returned when asked for), within [0, 1] and not below the initial guess's; if the optimiser finds the minimum in the box, it is the maximum over all axes. spherocity returns the spherocity along the axis found, positive and not above the initial guess's; if it is the least at the points of the box where the objective has a value, it is the minimum over all axes, those parallel to a particle included. With no particles or one at rest ZeroDivisionError is raised. A pencil-like event's spherocity 0 is never returned.",
  "all events, all optimisers keeping the contract, all initial guesses", "continuum, all optimiser runs",
  ["graphicle/calculate.py: thrust, spherocity"])
p("C98", "AdjacencyList keeps answering for the edges it had when first asked",
  "After any history of reads, in-place writes to the edges and changes of weights on an AdjacencyList, edges shows the present edges, while roots, leaves, matrix and the positions of to_sparse answer for the edges there were when any of them (or vertex_descendants of a vertex with an outgoing edge) was first needed; weights are the present ones. If all writes come before the first read every answer is for the present edges. Copies and subscripts answer for their own edges. Fewer weights than edges raise IndexError in matrix, surplus weights are ignored.",
  "all edge lists, all histories of reads and writes", "all histories",
  [f"{D}: AdjacencyList._edge_relabel, _sparse_signed, _sparse_unsigned, _sparse_csr, roots, leaves, matrix, to_sparse, copy, __getitem__", "graphicle/select.py: vertex_descendants"])
p("C99", "Which arrays share memory",
  "A contiguous slice (step one, or at most one record) of a graphicle array goes on showing the selected records of the original after any writes through any variable, as does Class(array) for a contiguous array of the right dtype and array[i] of a class with several components. copy(), subscripts by masks or integer lists, strided or reversed slices, array[i] of a class with one component, and constructions that convert or reorder are independent: no history of writes to one side changes the other. A write changes exactly the selected records.",
  "all arrays, all subscripts, all histories of writes, views, copies and assignments of two users", "all histories",
  [f"{D}: _array_field, _row_contiguous, __getitem__, copy, MaskArray.__setitem__, data setters"])
p("C100", "agg_op is whatever was given last, and understood when read",
  "Setting agg_op never fails; after any history of assignments the operation is the last one given, and masks are not affected. Deleting a name that is not there is KeyError and changes nothing. It is understood exactly if it spells and, or or none in upper or lower case; otherwise reading agg_op, data, str() and flatten() raise ValueError, while copies and subscripts hand it on. data is the aggregate by the meaning of the operations at every depth, a misspelt one acting as none; bitwise_or, bitwise_and do not depend on the group's own operation. A subscript by a list of integers is KeyError.",
  "all nested groups, all strings, all histories of assignments", "all strings, all trees, all histories",
  [f"{D}: MaskGroup.agg_op, data, bitwise_or, bitwise_and, copy, flatten, __getitem__, MaskAggOp"])
p("C101", "Printing a group lists every name at its depth",
  "str(group) shows the aggregation operation and then every name of the tree, each at the depth at which it is nested, in order, a group's names directly below it; nothing else.",
  "all nested groups", "all depths and widths",
  [f"{D}: MaskGroup.__rich__, __str__"])
p("C102", "Structured arrays and dictionaries of masks",
  "MaskGroup.from_numpy_structured(arr) has one mask per field, in order, with the column's truth values, and aggregates to their conjunction; an array without fields is TypeError. to_dict gives each top-level name with the aggregate of its mask, and fails exactly if one has none.",
  "all structured arrays, all groups", "all numbers of fields and lengths",
  [f"{D}: MaskGroup.from_numpy_structured, to_dict"])
p("C103", "Particle properties are looked up code by code",
  "name, latex, quarks, charge, mass, width, isospin, the parities and the mass and width bounds have one entry per code, in order: the table's entry for that code, with masses, widths and bounds in GeV (the table's MeV divided by 1000), missing entries staying missing. Each commutes with every subscript, and mass and width are within the bounds shown exactly if they are in the table.",
  "all tables, all code arrays, all subscripts", "all lengths and subscripts",
  [f"{D}: PdgArray.name, latex, quarks, charge, mass, mass_bounds, width, width_bounds, isospin, g_parity, space_parity, charge_parity"])
p("C104", "Selections do not depend on the order of the records",
  "Reordering (or repeating) the records of an event reorders vertex_descendants, edge_descendants, roots and leaves in the same way, and leaves the result of find_vertex, the set of hadron_vertices and, if no record is repeated, the matrix unchanged. Reordering also keeps the keys of hard_descendants and reorders its masks, if the hard partons (which are numbered in record order) stay in order; and it does the same to the tree of hierarchy if moreover the first record of every parton's descendants still leaves the same vertex. Without that last proviso hierarchy is refuted (C104_hierarchy_false): a shower record listed before the quark it comes from changes which particles the quark's leaf selects.",
  "all graphs, all reorderings", "all permutations of all graphs",
  ["graphicle/select.py: vertex_descendants, edge_descendants, hadron_vertices, find_vertex, hard_descendants, hierarchy", f"{D}: AdjacencyList.roots, leaves, matrix"])
p("C105", "Selections do not depend on the ids of the vertices",
  "Renaming the vertices of a graph, different ids differently, with either sign, changes neither vertex_descendants, edge_descendants, roots, leaves, hard_descendants (for all targets and options) nor hierarchy, exceptions included; hadron_vertices are renamed along; the matrix is unchanged if the renaming keeps the order of the ids.",
  "all graphs, all renamings", "all renamings of all graphs",
  ["graphicle/select.py: vertex_descendants, edge_descendants, hadron_vertices, hard_descendants, hierarchy", f"{D}: AdjacencyList.roots, leaves, matrix"])
p("C106", "Descendants are nested",
  "What descends from a vertex with outgoing edges reachable from v descends from v; in an acyclic graph a particle is not among the descendants of its own end vertex but is among its edge_descendants, and two different vertices with outgoing edges have different descendants; adding edges loses no descendant of a vertex with an outgoing edge. For vertices without outgoing edges none of this holds: all particles ending there are selected, also ones that descend from elsewhere.",
  "all graphs", "all graphs, cyclic or not",
  ["graphicle/select.py: vertex_descendants, edge_descendants"])
p("C107", "A mask group is an ordered map of names to masks",
  "Through every history of assignments, del, pop, popitem, clear, update and setdefault a MaskGroup holds the entries, in the order, of an ordered map with the same history, and every call returns or raises the same; popitem takes the first entry. `name in group` and get say whether the name is there and its mask. value in group.values() and items() compare by object identity or else by the truth value of ==, which is true for every mask of equal non-zero length, a TypeError for a MaskGroup held and a MaskArray asked for, and a ValueError for other lengths and non-masks.",
  "all groups, all histories of calls", "unbounded histories of mutating calls",
  [f"{D}: MaskGroup.__getitem__, __setitem__, __delitem__, __iter__, __len__ and the methods inherited from MutableMapping; _mask_eq"])

p("C108", "The weight argument of combined_mass",
  "combined_mass(p, weight): an (n, 1) column scales each particle by its weight, an (n, 4) table each component; one common weight w multiplies the mass by |w|; None is no weighting; what is not a numpy array, a 1-D array with neither one nor four elements, another number of columns, or a number of rows that is neither one nor the number of particles raises ValueError (for other than one particle). The natural reading of the documentation, that a vector of one weight per particle weights the particles, is refuted (C108_false): for four particles it weights the four components.",
  "all momenta and weight arguments of up to two dimensions", "continuum",
  [f"{K}: combined_mass"])
p("C109", "The printed form of arrays keeps the text numpy prints",
  "repr of an array, mask or adjacency list: if numpy prints the data on one line, the class name, that line and the dtype on one line; otherwise the first line follows the class name and an opening parenthesis, all others are moved right by the same width so that columns stay aligned, and the dtype has a line of its own. Two objects of one class print alike exactly if numpy prints their data and dtypes alike.",
  "all texts numpy may print, class names without newline, dtype texts without newline and equals sign", "all",
  [f"{D}: _array_repr"])

p("C110", "partition_descendants is idempotent",
  "partition_descendants of its own result, with the same event and distance, gives that result again: at every path the same groups and the same masks. (Particles entering hadronisation vertices must not be flagged final, as in C51; without that condition the claim is refuted, C110_false.)",
  "all events, hierarchies and distances", "a second run could move a hadron only in events with particular overlaps of vertices and partons, which no finite set of events exhausts",
  [f"{S}: partition_descendants"])
p("C111", "from_matrix with self-loops",
  "from_matrix(A, self_loop=True) loses no node. Unweighted, for 0/1 matrices, .matrix of the result is A with ones on the diagonal. With weighted=True it is A with the diagonal set to zero, whatever it was; the natural expectation that weights already on the diagonal are kept is refuted (C111_false).",
  "all square matrices with at least one node", "matrices of every size with any pattern of zeros, including isolated nodes and filled diagonals",
  [f"{D}: AdjacencyList.from_matrix, AdjacencyList.matrix"])
p("C112", "partition_descendants and the order of records and ids of vertices",
  "Reordering the records of an event (and the masks of the hierarchy) by any permutation reorders all masks of partition_descendants by it, provided no hadron is equally far from two partons entering its hadronisation vertex. Renaming the vertices changes nothing, provided different ones stay different and the hadronisation vertices keep their order. Both provisos are needed: with ties the first record wins (C112_false_ties), and hadrons behind two hadronisation vertices go by the one with the greater id, not the nearer one (C112_false_ids). The same holds of hierarchy followed by partition_descendants, under the provisos of C104 for hierarchy.",
  "all events, hierarchies, distances, permutations and renamings", "symmetry has to hold for every permutation and every renaming of every event; tests use events in the order the generator writes them",
  [f"{S}: partition_descendants, _partition_vertex"])
p("C113", "Event shapes and masses under collinear splittings and soft emissions",
  "Replacing a particle by two collinear parts z p and (1-z) p with 0 < z < 1, or by split_hardest with angle 0, changes neither thrust, spherocity and C-parameter (errors included) nor combined_mass, and split_hardest keeps combined_mass at every angle. Adding a particle with momentum c p changes thrust and spherocity along an axis, the C-parameter and combined_mass by an amount that tends to zero with c > 0. At c = 0 itself this is refuted: a particle with zero momentum makes the event shapes raise ZeroDivisionError, whatever the others and the axis (C113_false, C113_zero).",
  "all events, all axes, all fractions and all soft momenta", "infrared and collinear safety is a statement about all splittings and about a limit; a test takes one splitting at rounding precision",
  [f"{K}: _thrust_with_grad, _spherocity_with_grad, c_parameter, combined_mass", f"{T}: split_hardest"])
p("C114", "combined_mass of physical particles adds up",
  "For particles with energy at least the size of their momentum, combined_mass lies between the sum of the masses and the sum of the energies; the mass of two sets together is at least the sum of their masses; and selecting particles by any mask never increases it. For two massless particles its square is 2(E1 E2 - p1.p2). Without the condition on the energies this is refuted (C114_false).",
  "all sets of physical particles, all partitions and all masks", "the inequalities have to hold for every set of particles and every mask; a test computes a few masses",
  [f"{K}: combined_mass", f"{D}: MomentumArray.mass, MomentumArray.__getitem__"])
p("C115", "Event shapes of a rotated event",
  "For every rotation or reflection of space, thrust and spherocity of the rotated event along the rotated direction are those of the event along the direction, and the C-parameter is unchanged, errors included. If the searches find the best value inside their bounds, thrust reports the same value for an event and its rotation, for all optimisers and guesses, and so does spherocity when it returns; whether thrust raises does not depend on the orientation. rotation_matrix and shift_phi are such rotations. That spherocity raises or not whatever the orientation is refuted (C115_false).",
  "all events, rotations, directions, optimisers and guesses", "rotational invariance ranges over all rotations and all events, and through the restricted search domain over all directions; a test rotates one event once",
  [f"{K}: thrust, spherocity, c_parameter", f"{T}: rotation_matrix", f"{D}: MomentumArray.shift_phi"])

p("C116", "hierarchy writes only into its own copies",
  "hierarchy sets entries of leaf masks in place. For every heap, whatever objects the given or computed descendant groups share, every mask object that existed before the call still shows the same value afterwards; the call raises exactly when the value-level description does; and the returned tree shows the described value and shares no mask object or buffer with anything that existed before, so later writes on either side are not seen by the other.",
  "all heaps, aliasing patterns, events and descendant groups", "aliasing faults appear only for particular sharing patterns between the objects passed in and their later use, so a finite set of calls cannot exclude them",
  [f"{S}: hierarchy, _make_tree", f"{D}: MaskGroup.copy, MaskArray.copy"])

p("C117", "partition_descendants writes only to its own copy",
  "partition_descendants assigns new buffers to leaf masks. For every heap and every sharing pattern between the objects of the given tree (one mask object under two names included), every object that existed before the call holds the same afterwards, also when the call raises; the call raises exactly when, and what, the value-level description does; and the returned group shows the described tree, keeps agg_op, and shares no object or buffer with anything that existed before.",
  "all heaps, aliasing patterns, events, distances and mask trees", "aliasing faults appear only for particular sharing patterns between the objects passed in and their later use, so a finite set of calls cannot exclude them",
  [f"{S}: partition_descendants, _partition_vertex, _leaf_mask_iter", f"{D}: MaskGroup.copy, MaskArray.copy, MaskArray.data"])

p("C118", "Accuracy of mass, transverse mass and rapidity when arithmetic rounds",
  "If every arithmetic operation has a relative error of at most u, then: mass_t times its absolute value is e^2 - z^2 within ((1+u)^10 - 1) times |e^2 - z^2| - no cancellation error - and mass_t has the right sign and is zero exactly when |e| = |z|; mass times its absolute value is e^2 - |p|^2 within ((1+u)^14 - 1) times (e^2 + |p|^2); for a particle with e > |z|, rapidity is finite when e - |z| is above the tolerance by a rounding, with an error of ((1+u)^2 - 1) times its size plus (1+u)^2 (-3/2) log(1-u), and is infinite with the sign of z when e - |z| is below the tolerance by a rounding. Mirroring z negates rapidity and leaves both masses exactly as they are, however the arithmetic rounds. What is false: that the error of mass is relative to the mass (a massless particle can get a negative mass), and that pseudorapidity is finite for a particle with transverse momentum (rounding alone can make it infinite).",
  "all ways of rounding with relative error u in [0, 1), all four-momenta, all tolerances; no overflow or underflow",
  "a test compares with a tolerance on a sample of momenta and one platform's rounding; the bound must hold for every momentum, in particular for ultra-relativistic ones where the terms cancel",
  [f"{K}: _root_diff_two_squares, _rapidity", f"{D}: MomentumArray.mass, MomentumArray.mass_t, MomentumArray.rapidity, MomentumArray.eta"])

p("C119", "A copy of a mask behaves as a value under in-place updates",
  "After b = a.copy() (or for a group built from new masks), any series of updates made through b - leaf[...] = values or leaf.data = values at any depth, group[key] = new mask, del group[key], group.agg_op = op, recursive_drop(key, inplace=True) - leaves b showing exactly these updates performed one after another on the value a had; each update changes what is found at its path and nothing found elsewhere; everything that existed before the copy is unchanged and not reachable from b; and this holds whatever sharing there was between the parts of a. Without the copy it is false: a mask assigned under two names changes under both.",
  "all heaps, sharing patterns, mask trees and finite series of updates", "aliasing shows only for particular sharing patterns followed by particular updates; a finite set of histories cannot exclude it for all",
  [f"{D}: MaskArray.copy, MaskArray.__setitem__, MaskArray.data, MaskGroup.copy, MaskGroup.__setitem__, MaskGroup.__delitem__, MaskGroup.agg_op, MaskGroup.recursive_drop"])

p("C120", "clusters overwrites and removes masks only inside its own tree",
  "clusters(graph, radius) overwrites the booleans of leaf masks and removes members of groups in place. Whatever masks and groups exist in memory before the call, they all hold the same afterwards, whether the call succeeds or raises. Given enough recursion depth the call raises exactly when the computation on values does, with the same exception; otherwise the group returned shows the entries computed on values, combines them with or, and shares no object with anything that existed before.",
  "every event record, radius, distance, set iteration order and state of memory",
  "Aliasing between a result and older objects shows only when something is later modified; a test compares values of the few objects it looks at.",
  [f"{S}: clusters, leaf_masks, _leaf_mask_iter, hierarchy, partition_descendants", f"{D}: MaskGroup.recursive_drop"])

p("C121", "What the constructors store",
  "An array class stores booleans (MaskArray), 32-bit integers (PdgArray, ColorArray, AdjacencyList), 16-bit integers (StatusArray, HelicityArray) or doubles (MomentumArray). Given a numpy array of booleans, integers or doubles the constructor fails only for its shape, never for its values. A value of the class's type is kept, so constructing from the contents of an array gives the same contents. Other values are converted silently: a mask is True at all numbers but zero; a double given for an integer is cut towards zero if the result is an integer of the type; an integer outside the bounds loses a multiple of the size of the type, so that two integers are stored alike exactly when they differ by such a multiple. The expectation that codes are stored as given or refused is refuted (C121_false): 65559 becomes the status 23.",
  "all arrays of booleans, integers and doubles of all shapes, all classes, all platforms (in what C leaves undefined)",
  "a test constructs arrays from a few values; that no value is refused and which values collide ranges over all integers",
  [f"{D}: _array_field, MaskArray, PdgArray, MomentumArray, ColorArray, HelicityArray, StatusArray, AdjacencyList"])

p("C122", "Which objects a group shares with the masks it was made from",
  "Constructing a MaskGroup, selecting group[[names]], leaf_masks(tree) and flatten change no existing object, and it is determined what the new group shares with the old ones. MaskGroup(mapping) takes given masks and groups as its own members, puts a new mask on a given boolean array, and copies other values; nested mappings likewise. group[[names]][k] is group[k]. The members of leaf_masks(tree) and flatten('leaves') are the leaf objects of the tree themselves. In flatten('rise') leaves are the objects of the tree, nested groups become new masks with buffers of their own. In flatten('agg') every member is a new mask, on the buffer of the old one if that was a mask. For a repeated name the last object in depth-first order counts. The results show what the computation on values gives, or the same exception is raised. So a write through a leaf of the flat group is seen in the tree and conversely, while aggregates are snapshots.",
  "all heaps, sharing patterns, mask trees, mappings and lists of names", "aliasing shows only when something is modified later, through particular pairs of access paths; a finite set of histories cannot settle it",
  [f"{D}: _mask_dict_convert, MaskGroup.__getitem__, MaskGroup.flatten, MaskGroup.data, MaskArray.data", f"{S}: leaf_masks, _leaf_mask_iter"])

p("C123", "Accuracy of summed momenta, combined mass and centroids when arithmetic rounds",
  "If every arithmetic operation has a relative error of at most u, then whatever the order in which the terms are added: a sum differs from the exact sum by at most ((1+u)^h - 1) times the sum of the magnitudes, where no term goes through more than h additions, and h is at most n - 1; combined_mass is not negative, and its square is that of the exact mass within ((1+u)^(2h+d+4) - 1) times the squares of the summed magnitudes of the four components, with d additions in the Minkowski product; two runs on the same particles in different orders agree up to twice this bound; the pt-weighted mean in weighted_centroid is within ((1+u)^(h+2)/(1-u)^h - 1) times the weighted mean of the magnitudes. With exact arithmetic every order gives the sum. What is false: that combined_mass does not depend on the order of the particles.",
  "all ways of rounding with relative error u in [0, 1), all orders of summation, all particle lists of any length; no overflow or underflow",
  "how numpy orders a sum depends on the length, the memory layout and the build; a test runs one order on one sample",
  [f"{K}: combined_mass, weighted_centroid, resultant_coords", f"{D}: MomentumArray"])

p("C124", "delta_R of arrays with stored quantities",
  "a.delta_R(b, pseudo, threads) returns a matrix with one row per (pseudo)rapidity read from a and one column per (pseudo)rapidity read from b - those stored when first read, stale or not - and entry (i, j) is sqrt((y_i - y_j)^2 + dphi^2) with dphi the angle between the current transverse momenta. For arrays that were not written to since made these are the true distances of the records. Exchanging the arrays transposes it, for every schedule and number of threads; of an array with itself it has zero diagonal, is symmetric, non-negative and obeys the triangle inequality. No record changes; only a and b change, and only by storing what was read. The error is that of reading a, else b, else ValueError for a bad number of threads. What is false: that an array has distance zero from its copy (after a write to a read array), and that the result is determined by the records (fewer records than stored rapidities: the kernels read past the end).",
  "all pairs of arrays (the same object included), all histories of reads and writes, all schedules of the parallel kernels, all thread numbers, all contents of memory outside the arrays",
  "the outcome depends on which attributes were read before which write, and on how threads interleave; a test sees one history and one schedule",
  [f"{D}: MomentumArray.delta_R", f"{K}: _delta_R, _delta_R_symmetric, _thread_scope"])

p("C125", "hierarchy and partition_descendants share out the final momenta once",
  "Let tree = partition_descendants(graph, hierarchy(graph)). A final particle is in exactly one leaf of the tree, provided its origin is well-defined: it descends from exactly one hadronisation vertex, each particle entering that vertex is in exactly one leaf of the hierarchy, and leaves that contain the final particle contain one of these; or it descends from no hadronisation vertex and is in exactly one leaf of the hierarchy. If this holds for all final particles, aggregate_momenta over leaf_masks(tree), restricted to final particles, adds up to the total final momentum. Without partition_descendants it is refuted: hadrons of a colour singlet are counted once per parton (C125_false).",
  "all events, all distances, all momenta",
  "a sum over an unbounded event through four library calls; a test fixes one event and one hierarchy",
  [f"{S}: hierarchy, partition_descendants, leaf_masks", f"{K}: aggregate_momenta"])
p("C126", "What is computed from a set of particles does not depend on their order",
  "In exact arithmetic, for every rearrangement of the particles: combined_mass, resultant_coords, weighted_centroid, c_parameter, thrust and spherocity (with any optimiser and starting point, axis included) return the same or raise the same. With weights and masks rearranged alike, the weighted mass, aggregate_momenta and jaccard_distance are unchanged and the mask of centroid_prune is rearranged. The delta_R matrix has its rows and columns rearranged and cluster_coeff_distbn its entries, under all schedules of the parallel loops.",
  "all sets of particles, all permutations, all schedules", "all permutations of all inputs",
  ["graphicle/calculate.py: combined_mass, resultant_coords, weighted_centroid, c_parameter, thrust, spherocity, aggregate_momenta, jaccard_distance, cluster_coeff_distbn", f"{S}: centroid_prune", f"{D}: MomentumArray.delta_R"])
p("C127", "combined_mass and overflow",
  "If every operation has relative error at most u and a partial sum or square beyond the largest number overflows, then whatever the order of summation: combined_mass is the mass of C123 as long as the sum of the squared summed magnitudes of the four components, times (1+u)^(2h+d+2), is in range; and it is 0.0, whatever the mass, if the square of one summed component is out of range even with all roundings downwards (numpy's overflow warning is answered like that of a negative squared mass). What is false: that 0.0 is only returned for squared masses that are not positive; a particle at rest whose mass is a number in range has combined mass 0.0.",
  "all ways of rounding with relative error u in [0, 1], all orders of summation, all ranges of numbers, all particle lists of any length; finite inputs",
  "whether an intermediate result overflows depends on the sizes of all entries and on the order of summation; a test fixes both",
  [f"{K}: combined_mass"])

p("C128", "One record of an event, and iterating over an event",
  "event[i] of a ParticleSet or Graphicle for an integer i keeps record i (counted from the end if negative) of every non-empty attribute and leaves empty ones empty; if i is out of range for some non-empty attribute it raises IndexError. Iterating over an event that is not empty gives event[0], event[1], ... as many as the shortest non-empty attribute has records, and then ends. Refuted: that iterating ends as len(event) says - over an empty event it never ends (C128_endless); and that event[i] is an event like the others - with colours, its color has length two, printing and serializing it raise TypeError, no integer can subscript it and iterating over it gives nothing, although a whole event can be printed and serialized.",
  "all events whose attributes are empty or hold one row per record, of any lengths, all integers, any number of calls of next",
  "a loop that does not end cannot be observed by a test; the others depend on which attributes are filled",
  [f"{D}: ParticleSet.__getitem__, Graphicle.__getitem__, _composite_getitem, ColorArray.__getitem__, serialize, __str__"])

p("C129", "Assignments by angular distance do not depend on the frame",
  "Rotating all momenta about the beam by the same angle changes neither the group partition_descendants returns, nor the result of arg_closest, nor the group of monte_carlo_tag, nor the distances of delta_R_aff and parton_hadron_distance, whatever the schedules of the parallel loops, the number of threads and what is in uninitialised memory. A common boost along the beam changes neither arg_closest nor monte_carlo_tag, provided each momentum is below the speed of light along the beam by more than the tolerance before and after, or exactly along the beam at the speed of light (clustered particles: the former). partition_descendants is unchanged by boosts if all momenta are massless and not along the beam; with a massive parton it is not, since it compares pseudorapidities.",
  "all events of any size, all angles and boosts, all schedules, all solvers of the assignment problem",
  "a continuum of momenta, angles and boosts, and all interleavings of the parallel loops",
  [f"{S}: partition_descendants, _partition_vertex, arg_closest, monte_carlo_tag", f"{M}: parton_hadron_distance, delta_R_aff", f"{K}: _assignment_cost", f"{D}: MomentumArray.shift_phi, MomentumArray.shift_rapidity"])

p("C130", "Operators in place",
  "x op= y for an array class, with y an array of the class, an ndarray, a sequence or a number fitting x: the memory of x is overwritten with the results, so every other name, object, slice or ndarray sharing that memory shows them; x is bound to a new object holding the same memory without stored attributes, while attributes cached by the old object stay those of the old records. x = x op y gives the same results in new memory, and other names keep showing what they showed. An operand that does not fit (also: an x of one record is not stretched) is ValueError, one of a kind or dtype not handled TypeError, and nothing changes; an array y of another class is AttributeError after x was overwritten. In histories without operators in place a name shows the same until bound anew; a copy shows the same in any history that leaves its own name alone. Masks: &=, |=, ^= accept lists and bools and refuse groups, & and | the other way round, reflected operators and ^ are as in place; a group has no operators in place, group &= y gives a new mask. Refuted: that mask &= y works when mask & y does and vice versa; that an operation that raises has no effect; that cached attributes are those of the records shown.",
  "all states of names, objects and memory, all operations on records, all operands, all histories of any length",
  "who shares memory with whom depends on the whole history; a test fixes one",
  [f"{D}: _array_ufunc, MaskArray.__and__, MaskArray.__or__, MaskGroup.__and__, MaskGroup.__or__, copy", "graphicle/base.py: ArrayBase, AdjacencyBase"])

p("C131", "Assignments do not depend on the order of partons and clusters",
  "arg_closest with the focus elements and the candidates in another order returns if and only if it does for the original order, and the assignment it returns has the same total cost; if only one assignment is optimal and there are at least as many candidates as focus elements, each focus element is given the same candidate. monte_carlo_tag with the cluster masks in another order, and the clustered particles (and masks alike) in another order, returns if and only if it does for the original order, and if only one assignment is optimal gives the same keys in the same order, each with the same cluster. This holds for whatever schedules of the parallel loops and solvers of the assignment problem the two calls use. If several assignments are optimal, the order can decide.",
  "all momenta, masks and permutations of any size, all schedules, all solvers meeting the contract of linear_sum_assignment",
  "all permutations of all sizes, and all solvers and interleavings",
  [f"{S}: arg_closest, monte_carlo_tag", f"{K}: _assignment_cost, aggregate_momenta"])

p("C132", "Flag arguments that are not the two booleans",
  "With True and False the functions behave as the other properties say. PdgArray.mask and in_range ignore signs only for sign_sensitive=False itself; any other object, also 0 or numpy.False_, makes them heed the sign. hard_descendants with a target and such a false object for sign_sensitive gives what it gives for the absolute values of the target with sign_sensitive=True: antiparticles are never found, and it is an error if there are only those. strict and blacklist go by truth value. recursive_drop copies only for inplace=False itself, and with 0 or numpy.False_ changes the group given. from_matrix adds self-loops and keeps weights, and color_singlets inverts, only for True itself, not for 1 or numpy.True_. Refuted: that flags of the same truth value do the same, for each of these.",
  "all flag objects, all events, groups, matrices and targets of any size",
  "all objects as flags times all events; a call with the wrong kind of flag returns without a complaint",
  [f"{D}: PdgArray.mask, StatusArray.in_range, MaskGroup.recursive_drop, AdjacencyList.from_matrix", f"{S}: hard_descendants, color_singlets"])


p("C133", "clusters and color_singlets under symmetries of the event",
  "color_singlets gives the same groups (and leftovers with invert=True, for the same iteration order of sets) when the colour lines are renamed injectively with 0 kept, when colours and anticolours are exchanged, and when the records are reordered with the hard partons kept in order. clusters gives the same group under the first two, after a rotation of all momenta about the beam, after a boost along the beam if all momenta are massless and not along the beam, and after an injective renaming of vertices that keeps the hadronisation vertices in order. With the records reordered it gives the same keys in the same order with the masks in the new order of the final particles, or the same error, provided the hard partons keep their order, the first record of each parton's descendants leaves the same vertex, and no particle is equally far from two partons entering its hadronisation vertex.",
  "all events of any size, all renamings and permutations, all angles and boosts, all iteration orders of sets",
  "all events times all permutations, renamings, angles and boosts",
  [f"{S}: clusters, color_singlets, leaf_masks, centroid_prune, hierarchy, partition_descendants", f"{D}: MaskGroup.flatten, MaskGroup.recursive_drop"])

p("C134", "Graphs of affinities: renumbering of nodes, growth and edge lists",
  "cut_adj of the affinities of renumbered nodes is the renumbered graph, or the same error; and so is cut_adj of the delta_R distances of reordered particles, under all schedules of the parallel loops. Unweighted edges of cut_adj depend on the affinities and the cut only through their order: a strictly increasing function of both gives the same graph. knn_adj of renumbered nodes is the renumbered graph, or the same error, if no node has to choose between equally near ones (as when affinities differ within every column), however numpy partitions; with ties, what may come out is what may come out, renumbered; and asking for one more neighbour only adds edges if there was nothing to choose. from_matrix of the graph has an edge exactly where an affinity passes the cut, once, and self-loops exactly unless self_loop=False; and from_matrix of knn_adj gives every node nearest to itself edges to k others, none further than one left out.",
  "all affinity matrices of any size, all renumberings, cuts, modes and flags, all legal argpartitions, all schedules",
  "all matrices times all renumberings times all argpartitions",
  [f"{M}: cut_adj, knn_adj, delta_R_aff", f"{D}: AdjacencyList.from_matrix"])

p("C135", "What a group makes of the values given for its masks",
  "MaskGroup(mapping, agg_op) has the names of the mapping in order and under each what its value stands for: a mask or group itself, an array of booleans its elements (a scalar, a flat array, a single column, an array of length zero or a structured array with one field), a dictionary the group of its own values with the operation 'and'. It raises ValueError, and nothing else, exactly if some value at some depth stands for no mask. group[name] = value stores the same, and on a value that stands for no mask raises ValueError and leaves the group as it was; through every history of assignments the group is the ordered map of the values stored. But a dictionary is not made a group by an assignment: it is stored as a mask of length one, True if it has entries. The expectation that assigning gives what constructing does is refuted (C135_false).",
  "all nested mappings of any depth, all shapes, all histories of assignments",
  "all nested mappings and all histories",
  [f"{D}: MaskGroup.__init__, MaskGroup.__setitem__, _mask_dict_convert, MaskArray, _array_field"])

p("C136", "Accuracy of azimuthal differences and distances when arithmetic rounds",
  "When every operation rounds with relative error u (at most 1/4), the magnitude of the azimuthal difference of any two particles is right within one relative rounding plus an absolute error of (1+u) times pi/2 * sqrt 2 * ((1+u)^2-1), also for almost parallel and back-to-back momenta. delta_R is finite and right within two relative roundings plus the absolute errors of the rapidities and of the angle, by rapidity for all particles with |z| < e above the tolerance, and by pseudorapidity for all particles not too close to the beam in units of the rounding. If sums, differences and products are the exact ones rounded by one odd function, as in IEEE arithmetic, b.delta_R(a) is exactly the transpose of a.delta_R(b), and collinear particles of equal rapidity are at distance exactly zero. The expectation that the distance is relatively accurate is refuted for every u > 0: some rounding puts two particles of different azimuth at distance zero (C136_false).",
  "all momenta, all arithmetics whose operations have a relative error of at most u",
  "all rounding arithmetics and all momenta",
  [f"{K}: _delta_R, _delta_R_symmetric", f"{D}: MomentumArray.delta_R, MomentumArray.eta, MomentumArray.rapidity"])

p("C137", "The final descendants carry the momentum that enters",
  "In exact arithmetic, if momentum is conserved at every vertex of the shower of v that has outgoing edges, the momenta selected by vertex_descendants(adj, v) & adj.leaves add up to those of the particles entering the shower from outside, for every graph. So if a parton is the only particle entering its shower, the final particles in its mask from edge_descendants or hard_descendants add up to its momentum and have its mass as combined_mass (0 if that is negative); and over a whole event conserving momentum, pmu[adj.leaves] and pmu[adj.roots] have the same sum and mass. If something else enters the shower this is refuted (C137_false).",
  "all graphs, momenta and vertices", "conservation is a sum over showers of every shape and depth",
  [f"{S}: vertex_descendants, edge_descendants, hard_descendants", f"{D}: AdjacencyList.leaves, AdjacencyList.roots", "graphicle/calculate.py: combined_mass"])
p("C138", "Events cut out of events",
  "If a mask selects, with every particle, all that leaves its end vertex, then in the event cut out by it adj[mask].leaves is adj.leaves[mask], and vertex_descendants of a vertex all of whose outgoing edges are selected is vertex_descendants in the whole event, restricted to the mask; if the vertex has outgoing edges nothing is lost: any column subscripted first with the mask and then with the descendants found there equals the column subscripted with the descendants. The masks of vertex_descendants, edge_descendants and hard_descendants (without target), and their unions and intersections, are of this kind for every graph. In an acyclic graph the roots of the event cut out below v are the particles leaving v. For other masks this is refuted (C138_false).",
  "all graphs, masks and vertices", "all graphs and masks",
  [f"{S}: vertex_descendants, edge_descendants, hard_descendants", f"{D}: AdjacencyList.__getitem__, leaves, roots"])
p("C139", "Events laid over each other",
  "Appending the records of an event with other vertex ids changes no selection: vertex_descendants of a vertex is the mask found in its own event, padded with False; roots and leaves are those of the one followed by those of the other; hadron_vertices and find_vertex give the union; hard_descendants (without target) has the masks of both, padded with False, in order, only keys may get numbers; and if the ids of the second event are greater, adj.matrix has the two matrices on its diagonal and zeros elsewhere.",
  "all pairs of events without a common vertex id", "all pairs of graphs",
  [f"{S}: vertex_descendants, hadron_vertices, find_vertex, hard_descendants", f"{D}: AdjacencyList.roots, leaves, matrix"])

p("C140", "Event shapes at their extremes",
  "In exact arithmetic, for every event of moving particles: when the search finds the best axis inside its bounds, thrust returns a value in [1/2, 1], which is 1 exactly if all momenta lie on one line, and spherocity returns a value in (0, 1]. Along every axis, thrust T and spherocity S satisfy T^2 + (pi/4)^2 S <= 1 <= T + (pi/4) sqrt(S). c_parameter is 0 exactly if all momenta lie on one line, and 1 exactly if no direction is preferred.",
  "all events of moving particles, all axes, all optimisers that find the best axis", "all momenta, all axes; the bounds 1/2 and 1 come from the average over all directions",
  [f"{K}: thrust, spherocity, c_parameter, _thrust_with_grad, _spherocity_with_grad, _c_parameter"])

p("C141", "The initial guess for the axis is not uniform over the sphere",
  "thrust and spherocity document an initial guess sampled uniformly over the surface of a sphere. This is false: the guess is uniform in azimuth and inclination, so the mean squares of the components of the axis are 1/4, 1/4 and 1/2, while they are 1/3 each for every law that rotations leave unchanged.",
  "the law of the initial guess, all laws uniform over the sphere", "a statement about a probability law",
  [f"{K}: thrust, spherocity, _angles_to_axis"])

p("C142","Signed zeros",
  "Angles, rapidities and distances take the signs of zero components into account as follows. If neither of two particles has zero transverse momentum, delta_R does not depend on the signs of zeros, and is unchanged by a common shift_phi. If one has, the azimuthal part of their distance is pi when the sign bits of both transverse components differ and 0 otherwise; delta_R stays symmetric and zero from a momentum to itself. phi lies in [-pi, pi] and is the argument of (x, y), except -pi for x < 0, y = -0; theta is that of the values except pi for a particle at rest with z = -0; rapidity is that of the values except -inf for an energy within the tolerance of zero and z = -0. The expectations that shift_phi preserves all distances, and that momenta equal as numbers are at distance zero, are refuted.",
  "all momenta, all signs of their zero components, all rotation angles",
  "Which sign a zero has depends on how it was computed; tests compare numbers, for which both zeros are equal.",
  [f"{D}: MomentumArray.delta_R", f"{D}: MomentumArray.phi", f"{D}: MomentumArray.theta", f"{D}: MomentumArray.rapidity", f"{D}: MomentumArray.shift_phi", f"{K}: _delta_R", f"{K}: _delta_R_symmetric", f"{K}: _rapidity"])

p("C143","Quantities of a selection are selected quantities",
  "For every subscript, pmu[k].q equals pmu.q[k] for each kinematic quantity q, after every history of reads and writes in which no write follows the first read of q (refuted otherwise: the selection shows the current momenta, the array the stored quantity); pdg[k].mask(...) equals pdg.mask(...)[k], and likewise for in_range, hard_mask (name by name) and the looked-up PDG properties; the entries of a[k].delta_R(b[l]) are the rows and columns of a.delta_R(b) that k and l select, whichever kernel runs and however threads interleave; pmu[k].shift_rapidity(s[k]) and shift_phi equal the shifted array subscripted by k. Where the subscript raises, both sides raise the same error.",
  "all arrays, subscripts (masks, index lists, slices), histories, targets, schedules",
  "Users cut events before or after computing and expect the same numbers; the statement is about all subscripts and, because of stored attributes, all histories.",
  [f"{D}: MomentumArray.__getitem__", f"{D}: MomentumArray.delta_R", f"{D}: PdgArray.mask", f"{D}: StatusArray.in_range", f"{D}: StatusArray.hard_mask", f"{D}: MomentumArray.shift_rapidity"])

p("C144","Accuracy of rotations and boosts when arithmetic rounds",
  "In every arithmetic whose operations and functions have relative error at most u: after any sequence of shift_phi calls by s1..sn, the transverse momentum is the one rotated by s1+...+sn up to ((1+sqrt(2) g)^n - 1) times its magnitude, with g=(1+u)^3-1, and z and energy are unchanged (so pt is kept and rotating back restores, up to that error); after any sequence of shift_rapidity calls, energy and z are those boosted by the sum up to ((1+g)^n - 1) exp(sum|si|)(|E|+|pz|), x and y are unchanged, and E^2 - pz^2 is kept up to the corresponding error; the energy of a physical particle stays positive if 2((1+g)^n - 1) exp(2 sum|si|) < 1. Without that condition it need not: for every u > 0 some arithmetic of that precision gives a massless particle negative energy (refutation).",
  "all momenta, sequences of shifts of any length, and all arithmetics of relative error at most u",
  "Rounding errors accumulate over histories of calls; tests see single calls on sample values, and one platform's rounding.",
  [f"{D}: MomentumArray.shift_phi", f"{D}: MomentumArray.shift_rapidity"])

p("C145", "Infinite and nan components, and what is left after an experimental shift",
  "For momenta whose components may be infinite or nan, each attribute is characterised completely: pt, phi, theta and eta "
  "never look at the energy, rapidity and mass_t never at x and y; pt is infinite if x or y is, even if the other is nan; "
  "eta is nan for an infinite pz and zero for an infinite pt; rapidity is infinite - not nan - for a nan energy or pz, and "
  "nan for an infinite energy with finite pz; the mass is -inf for an infinite momentum with finite energy; boosting an "
  "infinite energy by zero makes pz nan.  combined_mass is nan if any component is nan, and zero if a momentum is infinite "
  "(no mixed infinities).  For finite components everything is as before.  After shift_eta(experimental=True), which sets the "
  "energy to nan, mass, mass_t and combined_mass are nan; but, against the documentation, the rapidity is never nan: it is "
  "infinite with the sign of the new pseudorapidity, and delta_R(pseudo=False) between such particles is either infinite or "
  "only their difference in azimuth.",
  "all records with real, infinite or nan components, all tolerances, shifts, sign bits of nan and orders of summation",
  "The conventions of IEEE 754 combine differently in each formula; a unit test tries one nan in one place.",
  [f"{D}: MomentumArray.shift_eta", f"{D}: MomentumArray.rapidity", f"{D}: MomentumArray.eta", f"{D}: MomentumArray.phi",
   f"{D}: MomentumArray.mass", f"{D}: MomentumArray.mass_t", f"{K}: _rapidity", f"{K}: _root_diff_two_squares", f"{K}: combined_mass"])

p("C146", "Accuracy of the event shapes when arithmetic rounds",
  "If every elementary operation (+, -, *, /, sqrt, sin, cos) has a relative error of at most u < 1, then for n particles: the "
  "norm of a three-momentum is correct to (1+u)^9 and raises ZeroDivisionError exactly for the zero vector; the thrust for a "
  "given axis has an absolute error of at most (1+v)^(16+2n) - 1, with 1+v = 1/(1-u); the C-parameter of at most "
  "6((1+v)^(50+2n+n(n+1)/2) - 1); the spherocity for a given axis, if it has a value, of at most 64/pi^2 ((1+v)^(55+4n) - 1). "
  "Thrust and C-parameter raise in exactly the same cases as with exact arithmetic.  But rounding can take the thrust above one "
  "and the C-parameter below zero, and decides whether the spherocity raises for an axis along a particle.",
  "all lists of momenta, all axes, all arithmetics of the given accuracy, all u < 1",
  "The errors of thousands of operations accumulate, with cancellation in the dot and cross products; a unit test compares with a tolerance chosen for one event.",
  [f"{K}: _three_norm", f"{K}: _thrust_with_grad", f"{K}: _spherocity_with_grad", f"{K}: _c_parameter", f"{K}: c_parameter"])

p("C147", "Infrared and collinear safety of partition_descendants",
  "Where a final particle goes depends on its direction only: rescaling final momenta by positive factors never changes the "
  "partition.  With the weighted distance and a negative pt_exp, a parton made softer and softer in a fixed direction ends by "
  "having no influence: there is a threshold below which every final particle of its vertex goes to the parton that would be "
  "nearest without it, and the partition of every tree stays the same -- provided no such final particle is exactly along the "
  "soft parton and each has another parton at a finite distance.  Both provisos are needed, and a parton exactly at rest takes "
  "everything (its distances are nan).  With a positive pt_exp, as documented, the partition is infrared unsafe: below some "
  "threshold the soft parton takes every final particle at finite angular distance.  With pt_exp 0 only directions count.  No "
  "negative exponent is collinear safe: splitting a parton along its direction can move a hadron to another parton.",
  "all events, trees, exponents, partons, directions and splitting fractions",
  "Safety is a statement about a limit of infinitely many events, and about all hadrons and trees at once.",
  [f"{M}: parton_hadron_distance", f"{S}: partition_descendants", f"{S}: _partition_vertex", f"{K}: _delta_R"])

p("C148", "arg_closest against its documentation",
  "Whenever arg_closest returns and every focus element has a candidate of its own that is better than every other candidate (not farther away in the rapidity-azimuth plane, not worse in transverse momentum, and better in one of the two), each focus element gets that candidate; in particular momenta assigned among themselves get themselves if no two coincide in direction and transverse momentum, also if both arguments are the same object. The two rules in the documentation do not hold: the cost is not the distance (a candidate twice as far away can be chosen because its transverse momentum fits), and a candidate that is nearest to two focus elements does not always go to the nearer one.",
  "all focus and candidate arrays, thread counts, schedules of the parallel loops and correct assignment solvers",
  "The rule quantifies over all arrays and all solvers with ties broken arbitrarily; sampled events rarely contain the conflicts that the documentation describes.",
  [f"{S}: arg_closest", f"{K}: _assignment_cost"])

p("C149", "What the children of a split are",
  "split_momentum of one moving particle with z > 0 turns the first child away from its parent by an angle whose cosine is cos(angle) + (1 - cos(angle)) (share of the momentum along the axis)^2, so never by more than angle, and by angle (in [0, pi]) exactly if angle = 0 or the axis is perpendicular to the particle. The squared mass of the first child is z^2 times the parent's; that of the second is (1 - z)^2 times the parent's minus 2 z (1 - cos(angle)) times the squared momentum across the axis, so its mass is non-negative exactly if the parent's mass pays for the turn. Refuted: for a massless parent not on the axis the second child always has negative mass, and with the default axis of split_hardest there are two massless particles for which every angle in (0, pi] displaces the first child by less than angle and gives the second child a negative mass.",
  "for every particle, fraction, angle and axis",
  "the formulas hold on a continuum of momenta, fractions, angles and axes; the exact set of axes for which the documented displacement holds cannot be sampled",
  [f"{T}: split_momentum", f"{T}: split_hardest", f"{T}: rotation_matrix", f"{T}: soft_hard_axis"])

p("C150", "Rotations and splittings under rounding",
  "With any arithmetic whose operations have a relative error of at most u (and whose matrix products have the error of three such operations, in any order of summation), every entry of rotation_matrix has an absolute error of at most 4((1+v)^14 - 1) for every angle and axis, with (1+v)(1-u) = 1; split_momentum raises in the same cases as in exact arithmetic, its children add up to the parent in every component within u times the second child's component, their energies are z E and (1-z) E within u z |E| and u (1+u) |E|, and each momentum component of the first child is within 4((1+v)^18 - 1) |z| (|px|+|py|+|pz|) of the exact one. split_hardest splits the first particle of greatest computed pt, so that no particle has a pt above (1+u)/(1-u) times its own, and copies the others unchanged. Refuted: the documented conservation of energy is not exact for every accurate arithmetic.",
  "for every arithmetic of relative accuracy u < 1, every particle, set of particles, fraction, angle and axis",
  "tests run one arithmetic on a few inputs; the bounds hold for every rounding mode, matmul implementation and input",
  [f"{T}: rotation_matrix", f"{T}: split_momentum", f"{T}: split_hardest"])

p("C151", "Masses and norms at the ends of the range of numbers",
  "In an arithmetic whose operations have a relative error of at most u, whose products, quotients and moduli may lose an absolute eta to underflow, and where anything beyond a largest number becomes infinite: mass_t stays in range as long as |E| + |pz| does, with a margin of six roundings, far beyond where E^2 overflows, and is then accurate relatively but for one underflow; when |E| + |pz| is out of range it is infinite with the sign of |E| - |pz|, and nan if they are equal. mass is likewise in range as long as |E| + |p| is. If the momentum is out of range the mass is negative infinity, whatever the energy and although the exact mass may be in range. The norm used by the event shapes is accurate as long as the reciprocal of the largest component and the norm itself are in range. Whatever the particles, in a range large enough the thrust is the one computed without limits. Refuted: that the thrust objective is a number for moving particles: once the reciprocal of the largest component of one particle is out of range (a subnormal momentum), its norm is nan if a component is zero, so that the thrust of any event containing it is nan for every axis; and infinite otherwise, so that the particle alone has thrust 0 for every axis. A particle at rest, or no particles, is a ZeroDivisionError whatever the range, and there is no other exception.",
  "for every arithmetic of accuracy (u, eta) and every largest number, every particle and every axis",
  "tests evaluate a few magnitudes in one arithmetic; the claim is about every magnitude up to the ends of the range",
  [f"{K}: _root_diff_two_squares", f"{K}: _three_norm", f"{K}: _thrust_with_grad", f"{D}: MomentumArray.mass", f"{D}: MomentumArray.mass_t"])

p("C152", "Events are objects that share their parts",
  "ParticleSet and Graphicle hold references to their attributes. Whatever a user does with the constructors, subscripts, copies, writes and assignments: an attribute given to a constructor is the very object given, one left out is a new object without records; events made of one particle set have the same attribute objects until the particles of one are replaced; assigning particles.a puts any array in its place, without checking its length, for the particle set and for every event made of it and nothing else, and event.a = ... is AttributeError; x.data = y shows in every event that has x. copy() shows the same and is independent for ever: no step of a user of the copy is seen by a user of the rest, nor the other way round. event[mask], event[integers] and event[slice with another step than one] show what the subscript selects of every attribute that has records, raise if it cannot be applied to one of them, and are independent; event[start:stop] never raises and goes on showing the slice of what the event shows until something is put in the place of a part of either. Refuted: that an event keeps the attributes it was made with.",
  "for every history of operations on any number of events, particle sets and arrays, in any order between two users",
  "tests try a few aliasing patterns; the claim is about every history and every sharing of objects and memory",
  [f"{D}: ParticleSet", f"{D}: Graphicle", f"{D}: _composite_getitem", f"{D}: _composite_copy", f"{D}: _nonempty_dsets"])

p("C153", "jaccard_distance with rounding, overflow and weights that are not numbers",
  "Let every addition round with relative error u, the division with u and an underflow eta, both preserving order, and let results beyond the largest number be infinite. jaccard_distance is exactly symmetric for all weights; with weights that are numbers a mask is at distance exactly 0 from itself; with weights that are not negative and a union in range it is a number in [0, 1] within 2n+1 relative roundings and eta of the exact distance, and the triangle inequality holds up to 4n+2 roundings; without weights there is a single rounding as long as n can be counted. Refuted: the triangle inequality without margin; that different masks with positive weights are at a positive distance - it is 0 if the weight of the union overflows and nan if that of the difference does; that weights of elements in neither mask do not matter - a single infinite or nan weight, anywhere, makes the distance nan.",
  "all ways of rounding in order, all ranges of numbers, all masks of any length, all weights",
  "rounding errors and overflow depend on every weight and partial sum; tests compare a few values with a tolerance",
  [f"{K}: _jaccard_distance", f"{K}: jaccard_distance"])
p("C154", "Clustering coefficients in single precision",
  "cluster_coeff_distbn adds up the links in single precision, which counts to N = 2^24. The coefficient of a particle is the number of linked ordered pairs of neighbours, cut off at N, over the number of ordered pairs of neighbours, with one rounding for the division and one for the conversion. With at most N linked pairs it is within these two roundings of the exact coefficient of C73, and exactly one for a clique; in any case it is in [0, 1], and zero exactly if the exact one is. Refuted: that a particle whose neighbours are all linked has a coefficient near one: with more than 4096 neighbours it is less, and tends to zero as the number of neighbours grows.",
  "all point-clouds and graphs of any size, all schedules of the parallel loop, all roundings of division and conversion",
  "the cut-off needs more than four thousand neighbours, far beyond any unit test",
  [f"{K}: _clust_coeffs", f"{K}: cluster_coeff_distbn"])

p("C155", "Results do not depend on the hash seed",
  "Python iterates over a set of strings in an order that changes from run to run. clusters gives the same group, with its names in the same order, or the same error, for all such orders: the leaves it prunes one after the other are different objects. color_singlets without invert is the same list, and with invert=True the same error or the same one-element tuples, each as often, in some order. The expectation that color_singlets(invert=True) is the same list in every run is refuted (C155_false).",
  "all events, all radii and distances, all pairs of iteration orders of sets",
  "a test process has one hash seed; the orders of a set are factorially many",
  [f"{S}: clusters", f"{S}: color_singlets"])

p("C156", "Pruning around a centre when arithmetic rounds",
  "However the operations of centroid_prune with a given centre round, with a relative error up to u <= 1/8 each, every particle clearly inside the radius is kept and every particle clearly outside is dropped, where 'clearly' is a margin of two roundings of the distance plus the errors of the pseudorapidity and of the angle. A larger radius never drops a particle, a radius that is not positive keeps none, particles whose pseudorapidity is infinite or nan are dropped, and the rest is as without rounding: one entry per particle, False where the mask is False, IndexError for a mask of another length. Without rounding it is the condition of C55. The expectation that rounding never changes which particles are kept is refuted (C156_false).",
  "all momenta, masks, centres and radii, all roundings of every operation within relative error u",
  "which particle lies near the edge, and how each library function rounds there, is different for each input and platform",
  [f"{S}: centroid_prune", f"{D}: MomentumArray.delta_R"])

p("C157", "Several threads reading cached quantities",
  "Any number of threads may read the cached quantities of any MomentumArray and AdjacencyList objects (eta, phi, mass, the sparse graph structures, ...) at the same time, as long as none changes the data. In every interleaving, and whether or not cached_property takes its lock (Python before 3.12 does), each read gives what it gives alone, values or exception, and whatever is stored is the right value. Without the locks every read ends after a number of the thread's own steps fixed by the nesting of the attributes, whatever the others do. With them no state is a deadlock, every fair schedule ends, and no attribute is computed successfully twice. The expectation that without the locks too a value is computed only once is refuted (C157_false).",
  "all numbers of threads, all sequences of reads by each, all interleavings, all contents of the arrays, with and without locks",
  "a test sees one interleaving of very many, and a harmful one is rare",
  [f"{D}: MomentumArray._zt_pol, MomentumArray._spatial_mag, MomentumArray.eta, MomentumArray.rapidity, MomentumArray.phi, MomentumArray.theta", f"{D}: AdjacencyList._sparse_signed, AdjacencyList._sparse_unsigned, AdjacencyList._sparse_csr"])

p("C158", "The warning filters when several threads are at work",
  "combined_mass and the first read of MomentumArray.eta change the process-wide warning filters while they run. If no thread runs while another has them changed, every call gives what it gives alone - combined_mass 0 for a negative square, eta infinite or nan without a warning, phi with its warning handled by the user's filters - and afterwards the user's filters are in force again. In any interleaving at all: results come in the order of the calls; combined_mass gives its value, or nan if the squared mass is negative; eta gives its values silently, or, if a particle is on the beam axis, may show or raise a RuntimeWarning; phi gives its values, and if a transverse momentum is negligible may be silent, warn or raise. So calls in which nothing warns give their values whatever the other threads do. The expectation that threads never affect one another is refuted: nan from combined_mass, RuntimeWarning from eta, and filters that stay changed for good after two overlapping calls (C158_false).",
  "all numbers of threads, all sequences of calls by each, all interleavings, all momenta, all filters at the start",
  "a test sees one interleaving of very many, and the filters are shared by all of the process",
  [f"{K}: combined_mass", f"{D}: MomentumArray.eta, MomentumArray.phi"])

p("C159", "What fastjet_clusters returns with the generalised-kt algorithm",
  "With FastJet running sequential recombination (the smallest of the distances min(pt^2p) dR^2/R^2 between pseudojets and pt^2p from the beam decides; momenta are added; ties may go either way): every mask has one entry per particle and selects at least one particle, no two masks share a particle, the summed momentum of each mask has at least the transverse momentum pt_cut and a pseudorapidity within eta_cut, the masks come in order of non-increasing transverse momentum of their sums, and there are at most top_k. Without cuts every particle is in one mask and the momenta of the masks add up to that of the event. With p_val=0 the summed momenta of any two masks are at least radius apart. Particles of which no two are nearer than radius stay alone, for every p_val. What can be returned does not change under a common boost along the beam (without eta_cut) or a rotation about it, if no particles balance in transverse momentum; it is rearranged with the particles if their order is changed; and if a particle is replaced by two along its direction, both parts are where the particle was. The expectation that particles nearer than radius share a mask is refuted (C159_false).",
  "all lists of momenta, all radii, exponents, cuts and top_k, all ways in which ties are resolved, all boosts and rotations, all orders of the particles, all collinear splittings of a particle",
  "a test clusters a few events; these hold for every run of the recombination, of any length, and relate pairs of infinitely many events",
  [f"{S}: fastjet_clusters"])

p("C160", "The unit of the momenta",
  "Converting the unit of the momenta, multiplying all four components of every record by a positive number c, multiplies transverse momentum, transverse mass, mass, sums and the combined mass by c and leaves pseudorapidity and polar angle as they are. If the zero tolerance of the coordinates is converted along with the momenta, rapidity, azimuth, separations, the resultant coordinates, the weighted centroid, thrust, spherocity and the C-parameter are unchanged, and centroid_prune, partition_descendants, clusters, arg_closest and monte_carlo_tag select the same particles. fastjet_clusters can return exactly the same masks for every exponent, radius, eta_cut and top_k, if pt_cut is converted too and no subset of the particles balances in transverse momentum. With the tolerance as it is, rapidity and azimuth are the same for records above the tolerance in both units, and not in general (the plain statement that they do not depend on the unit is refuted).",
  "every positive conversion factor, tolerance, momentum array, graph and set of parameters",
  "A test compares GeV with MeV on one event; the claim is for every conversion factor and event, and every run of the clustering.",
  [f"{D}: MomentumArray.rapidity", f"{D}: MomentumArray.phi", f"{D}: MomentumArray.eta", f"{D}: MomentumArray.mass", f"{K}: combined_mass", f"{K}: resultant_coords", f"{K}: weighted_centroid", f"{K}: thrust", f"{K}: spherocity", f"{K}: c_parameter", f"{S}: centroid_prune", f"{S}: partition_descendants", f"{S}: clusters", f"{S}: arg_closest", f"{S}: monte_carlo_tag", f"{S}: fastjet_clusters"])

p("C161", "Double precision meets the contracts",
  "Rounding to the nearest number of p significant bits, ties to even (53 bits for the doubles numpy computes with), gives a number of p bits, none of p bits is nearer, a tie goes to the even one, the order of numbers is kept and the sign is mirrored. Arithmetic rounded in this way meets every accuracy contract assumed of rounded arithmetic in C118, C123, C136, C144, C146, C150 and C156 with unit 2^-p, functions off by one unit in the last place with 2^(1-p), single-precision counting up to 2^24 (C154), and with gradual underflow the contract of C151 with unit 2^-53 and threshold 2^-1075. So in double precision the square of the mass is right to 2^-47 of the squares, sums of up to a million terms in any order to 2^-31 and the thrust of up to a million particles to 1e-9; the mass never has the wrong sign and is zero for a record whose energy is the modulus of its momentum; eta is nan exactly for particles at rest; and units which differ by a power of two give exactly converted pt, modulus, eta, rapidity, sums and combined masses. Expectations refuted: the mass of a particle at rest need not be its energy, nor does mass convert exactly by powers of two; eta of a particle off the beam need not be finite; and a sum or combined mass may depend on the order of the particles.",
  "all numbers of bits, all records, all collections of particles, all orders of summation", "the claims range over all real inputs and every number of bits; the accuracy hypotheses of the other properties are only worth having if real arithmetic meets them for every operand",
  [f"{D}: MomentumArray, MomentumArray.mass, MomentumArray.mass_t, MomentumArray.eta, MomentumArray.pt", f"{D}: MomentumArray.modulus", f"{K}: _root_diff_two_squares, combined_mass, _rapidity, thrust, cluster_coeff_distbn"])

p("C162", "Mirror images",
  "In a mirror across the beam (z to -z) pt, masses and azimuth stay, eta and rapidity change sign and theta becomes its supplement; in a mirror along the beam (y to -y) everything but the azimuth stays, and that changes sign (the half turn is its own opposite). Distances are the same in both, boosts and rotations turn into their opposites, sums and combined masses follow, and one coordinate of resultant_coords and weighted_centroid changes sign. So arg_closest, monte_carlo_tag, partition_descendants, clusters, centroid_prune (with the mirrored centre) and fastjet_clusters give the same masks, the objective of thrust has the same value and the mirrored gradient at the mirrored axis, spherocity's has the same value, and c_parameter is the same. Conditions: a record with vanishing z and energy has a rapidity decided by the sign of a zero. Refuted: weighted_centroid with a particle on the half turn is not mirrored, nor is the gradient used by spherocity.",
  "all momenta, events, hierarchies, schedules, radii, axes", "a symmetry of all inputs at once, with exceptional inputs of measure zero that no sample meets",
  [f"{D}: MomentumArray, MomentumArray.phi, MomentumArray.theta, MomentumArray.delta_R, MomentumArray.shift_rapidity, MomentumArray.shift_phi", f"{K}: resultant_coords, weighted_centroid, combined_mass, thrust, spherocity, c_parameter", f"{S}: arg_closest, monte_carlo_tag, partition_descendants, clusters, centroid_prune, fastjet_clusters"])

p("C163", "Tightening a cut never adds anything",
  "A larger radius in clusters gives the same names, and each cluster keeps its members. In fastjet_clusters top_k returns the first masks of those returned without it; without top_k a lower eta_cut only takes masks away and leaves the others in order, and so does a higher pt_cut, up to the order of jets with equal pt, if FastJet's inclusive jets are those of one clustering above the cut. StatusArray.in_range with a narrower range, PdgArray.mask with fewer targets (or a longer blacklist) and find_vertex with more particles asked for select no more. A clustering coefficient that is not zero stays so with a larger radius. Refuted: that the coefficients grow with the radius, and that with top_k a lower eta_cut adds no jet.",
  "all events, hierarchies, radii, cuts, ranges and target lists, outputs of FastJet, sort orders and schedules of the parallel loops", "a relation between two runs with different parameters, for all events",
  [f"{S}: clusters, fastjet_clusters, find_vertex", f"{K}: cluster_coeff_distbn", f"{D}: StatusArray.in_range, PdgArray.mask"])

p("C164", "Selections applied to their own results",
  "fastjet_clusters on the particles of one jet it returned, with the same arguments, can return that jet whole and nothing else (FastJet may choose between equal distances, hence 'can'). centroid_prune around a given centre: pruning the result again with another radius is pruning once with the smaller radius, with the same radius it changes nothing, and the kept particles on their own are all kept. PdgArray.mask and StatusArray.in_range select all of what they selected. A group flattened by 'rise', 'agg' or 'leaves' (leaf_masks) is unchanged by flattening it again the same way. Refuted: that the prune around the particles' own centre is idempotent.",
  "all events, jets, exponents, cuts, radii, centres, masks, code lists, ranges and groups of any depth", "a relation between a run and a run on its output, for all events and groups",
  [f"{S}: fastjet_clusters, centroid_prune, leaf_masks", f"{D}: PdgArray.mask, StatusArray.in_range, MaskGroup.flatten"])

p("C165", "Without ties fastjet_clusters is determined",
  "If at no stage of the clustering two pseudojets nearer than the radius tie for the smallest distance (with two others, or with a distance from the beam), then whatever FastJet and the sorting do, all results of fastjet_clusters without top_k hold the same masks, for every exponent and all cuts; if moreover no two jets above the cuts have the same transverse momentum, the list of masks is determined, also with top_k; and called on the particles of a jet it returned, with no tie among these, it must return that jet whole and nothing else. With a tie the result is not determined (C165_false).",
  "all events, radii, exponents, cuts, top_k, orders in which FastJet searches and sorts", "uniqueness over all runs of the algorithm; ties in the distances of the beam, which Cambridge-Aachen always has, do not matter",
  [f"{S}: fastjet_clusters"])

p("C166", "fastjet_clusters does not mind a little noise",
  "If at no stage of the clustering a pseudojet is along the beam or two are exactly at the radius, and no jet is exactly at pt_cut or eta_cut, then there is a margin such that, with every component of every momentum off by less and any number of particles after them whose energies add up to less, fastjet_clusters with a positive pt_cut returns, restricted to the particles of the event, a list of masks it can return for the event itself, jet by jet and in the same order, with the momenta of the jets as little off as one asks, for every exponent and top_k; without ties (C165) these are the very masks it returns for the event. Without a positive pt_cut the jets of the event come first, and after them only such as select none of its particles; with nothing added the masks are masks it can return for the event (C166_perturbed). A jet exactly at the cut may be lost with the least change (C166_false_cut), and two particles exactly at the radius become one jet (C166_false_radius).",
  "all events, radii, exponents, pt_cut, eta_cut, top_k, all perturbations within the margin and any number of soft particles", "a limit statement over infinitely many perturbed events and all runs of the algorithm on them",
  [f"{S}: fastjet_clusters"])

p("C167", "Event shapes and masses of an event that drifted",
  "Let an event differ from another in that some particles are lost, some are new and the others moved, in any order, the sizes of all these changes adding up to D. Then thrust along every axis, and the thrust returned where the searches find the best axis, differ by at most 2D/P with P the sum of the sizes of the momenta; spherocity by at most (4/pi)^2 4D/P; c_parameter by at most 3(1+sqrt 2)D/P; and the square of combined_mass by at most 2D(|E|+|P_total|+D), energies being counted in D. For combined_mass itself no multiple of D will do (C167_false).",
  "all events of moving particles, all drifts of any size and any number of soft particles, all axes, optimisers and guesses",
  "a test changes one event in one way; the bound is uniform over all events and all changes of them, of any multiplicity",
  [f"{K}: thrust, spherocity, c_parameter, combined_mass"])

p("C168", "Off ties and boundaries, selections by angular distance do not mind a little noise",
  "partition_descendants with its real distance: if, among the particles entering a hadronisation vertex, the one nearest to a final particle descending from it has no rival exactly as near, and none of them moves along the beam, then there is a noise level below which every perturbation of all momenta gives the same partition, for every hierarchy of masks. centroid_prune, with or without a mask or a centre: if no selected particle moves along the beam or lies exactly at radius from the centre used, and the default centre, if used, has an azimuth, then there is a noise level below which the same particles are kept. On ties, and for a particle exactly at the radius, arbitrarily small noise does change the outcome (C168_tie_false, C168_boundary_false).",
  "all events, graphs, status codes, hierarchies and distance exponents; all masks, radii, tolerances and centres; all perturbations of all momenta at once",
  "a test perturbs one event by one amount; the claim is that for every event off a tie some neighbourhood of it is all decided alike",
  [f"{S}: partition_descendants, centroid_prune"])

p("C169", "Off ties, arg_closest does not mind a little noise",
  "Let arg_closest have a result for some focus and candidates (all distances finite, neither the candidates' transverse momenta nor any focus element's distances all equal), let no particle move along the beam or at the speed of light within the tolerance of it, and let all cheapest assignments give the same candidates. Then there is a noise level below which, however all momenta of both arrays are perturbed, arg_closest returns, and returns these candidates, for every schedule of the parallel loops, number of threads and solver. The same of monte_carlo_tag: off ties the group it returns is the same for all events and clustered momenta within some noise level.",
  "all focus and candidate arrays, events and cluster masks of all sizes, all perturbations of all momenta at once, all schedules, thread counts, solvers and histories of the two objects",
  "a test perturbs one event by one amount with one solver; the claim is that a whole neighbourhood of every event off a tie is assigned alike",
  [f"{S}: arg_closest, monte_carlo_tag", f"{K}: _assignment_cost, aggregate_momenta"])

p("C170", "Off ties and boundaries, clusters does not mind a little noise",
  "Let no final hadron be equally near, in the weighted distance, to two of the partons entering the hadronisation vertex it descends from, let none of these move along the beam, and let, in each leaf of the partitioned hierarchy, no particle move along the beam or lie exactly at the radius from an outgoing parton of the leaf. Then there is a noise level below which, however all momenta of the event are perturbed, clusters(graph, radius) gives the same clusters under the same names, or raises the same exception.",
  "all events of all sizes, all radii and exponents, all orders of iteration over sets, all perturbations of all momenta at once",
  "a test perturbs one event by one amount; the claim is that a whole neighbourhood of every event off ties and boundaries is clustered alike",
  [f"{S}: clusters", f"{S}: partition_descendants", f"{S}: centroid_prune"])


import os
WHY = json.load(open(os.path.join(os.path.dirname(os.path.abspath(__file__)), "why.json")))
for d in P:
    d["why_tests_cant"] = WHY.get(d["id"], d["why_tests_cant"])

if __name__ == "__main__":
    import os
    out = os.path.join(os.path.dirname(os.path.dirname(os.path.abspath(__file__))), "properties.jsonl")
    with open(out, "w") as f:
        for q in P:
            f.write(json.dumps(q) + "\n")
    print(len(P), "properties")
