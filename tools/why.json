{
"C09":"groups nest to any depth and width; a tested tree says nothing about a deeper one",
"C12":"the state after a history depends on every assignment and deletion in it, and histories have no maximal length",
"C17":"each field order and alias must work for edge lists of every length and content; tests fix a few small tables",
"C18":"a wrong column is only visible when the two codes differ, in any row of any length of table",
"C20":"index objects (masks, integer lists with repeats and negatives, slices with any step) times array lengths cannot be enumerated",
"C21":"the law relates two arbitrary masks where the second has as many entries as the first has trues, for every length",
"C22":"the result must be right for every subset of codes, every sign and both flags; a test checks a few species",
"C24":"the categories must be right for all 2^16 codes at every position of arrays of every length",
"C27":"any attribute may be empty or filled independently, at any number of records",
"C28":"equality is a relation on pairs: agreement on tested pairs does not exclude an unequal pair judged equal",
"C29":"simultaneous replacement differs from successive replacement only for particular code combinations in one record",
"C31":"2^7 subsets of attributes times all contents",
"C32":"a round trip has to hold for every event, with any subset of attributes empty",
"C33":"ties in magnitude (an id and its negative) are ordered arbitrarily by numpy's sort, so the claim ranges over all its outcomes",
"C34":"a statement about every graph, including cycles, repeated edges and isolated parts",
"C35":"holds for multigraphs of every size with arbitrary, gapped and negative ids",
"C36":"an inverse law over all matrices of all sizes, which fails exactly for isolated nodes",
"C37":"graphs of any size with arbitrary ids; a wrong renumbering shows only for particular gaps and signs",
"C38":"weights of repeated edges must be summed for any number of repeats at any place",
"C40":"reachability is over paths of any length in any graph, cyclic or not",
"C41":"depends on all codes entering and leaving every vertex of any event",
"C42":"every vertex with any multiset of incoming and outgoing codes, against any pair of code sets",
"C43":"keys collide only for particular multiplicity patterns, and there are infinitely many",
"C44":"descendants are over paths of any length from any parton of any event",
"C46":"which error is raised depends on the set of codes present, the targets and both flags together",
"C48":"the tree of partons may have any shape and depth",
"C49":"which partons are dropped depends on the ancestry between all of them, for every acyclic event",
"C50":"whether a leaf mask is empty depends on the whole graph below the parton",
"C51":"a hadron at equal distance, or a vertex fed by several partons, occurs only in particular events; the claim is for each of them",
"C52":"that nothing else changes has to hold at every record of every mask in trees of every shape",
"C53":"overlap may hide in any pair of children at any position",
"C54":"colour connections form arbitrary permutations of the partons",
"C55":"real-valued positions and radii, including the boundary of the cone and the wrap of the azimuth",
"C56":"fastjet may return any collection of jets; cuts and truncation must be right for all of them",
"C57":"threads may interleave their writes in any order, and optimality is over all injective assignments",
"C58":"any tree of masks, any filter lists, any number of clusters",
"C60":"masks over the final particles for every event, also those without partons at some hadronisation vertex",
"C61":"Lorentz invariants over a continuum of momenta and shifts; tests compare a few within tolerance",
"C62":"a continuum of momenta and angles, with the branch cut of the azimuth",
"C64":"the loop may run any number of iterations, and the warning depends on the last",
"C65":"symmetry and the triangle inequality range over pairs and triples from a continuum, with infinite rapidities",
"C67":"identities over a continuum of momenta, including spacelike sums where the square root would fail",
"C68":"any number of masks over any number of particles; conservation is for all partitions at once",
"C69":"that a gradient is the derivative is a limit statement at every axis; finite differences only approximate it at some",
"C70":"that a gradient is the derivative is a limit statement at every axis; finite differences only approximate it at some",
"C71":"bounds must hold for all configurations of momenta, and are attained only at extreme ones",
"C73":"every graph of every size; isolated and single-neighbour nodes are the exceptional ones",
"C74":"an exception may occur at any point of any nesting",
"C76":"the exceptional inputs form a set of measure zero that random tests never draw",
"C77":"entries equal to the cut, zeros and flags, at every place of matrices of every size",
"C79":"a statement for every n, including zero and one",
"C80":"orthogonality, determinant and the fixed axis over a continuum of angles and axes",
"C81":"a continuum of axes, with the poles and the branch cut as exceptions",
"C82":"conservation and masses over a continuum of momenta, fractions, angles and axes",
"C83":"any number of particles, any position of the hardest, ties included, and a continuum of fractions and angles",
"C84":"must hold for every draw of the generator; a sample shows neither the bounds nor the missing hemisphere with certainty",
"C85":"what is shown depends on the order of all earlier reads and writes, and histories have no maximal length",
"C86":"the truncation must be right at every number of records, around and above the limit",
"C87":"an inverse law over all lists of names and all lookup tables with unique names",
"C88":"the result depends on ufunc, method, operand types, dtype and shape in combination",
"C89":"identities over a continuum, with massless, lightlike and beam-parallel momenta as exceptions",
"C90":"that every direction is reached, and no value is missed, is a statement about all unit vectors",
"C91":"equivariance over a continuum of momenta, rotations and boosts",
"C92":"every pair of operands of every class, length and content",
"C93":"that a comparison never succeeds cannot be seen from any number of failing ones",
"C94":"any number of records of any class",
"C95":"all shapes and dimensions of values, valid and invalid, for every class",
"C96":"a continuum of momenta and exponents, and every schedule of the parallel loop",
"C98":"what is answered depends on when the structure was first needed in an arbitrarily long history of reads and writes",
"C99":"sharing is about all later writes of all parties, in histories without maximal length",
"C101":"trees of any depth and width with any names",
"C108":"a continuum of momenta and weights in every shape numpy can broadcast",
"C109":"numpy's text may have any number of lines of any content"
}
