import Verif.Model.Partition
import Verif.Model.HierMem
/-!
# Model of `partition_descendants` with the objects it writes to

graphicle/select.py:376-476 once more, on the heap of Model/Heap.lean: the function copies the tree it is given
(select.py:461) and, vertex by vertex, gives the leaf masks of the copy new buffers (`mask.data = ...`,
select.py:468-475).  Model/Partition.lean models the values only.

Every function returns the heap also when it raises.
-/
namespace Gcl
set_option autoImplicit false

/-- The body of the innermost loop for the leaf mask at `a`, graphicle/select.py:466-475: `_partition_vertex` makes a
new mask (`mask.copy()`, select.py:413) and changes its buffer (select.py:420); that buffer becomes the one of the leaf
(the setter of `data`, graphicle/data.py:578-582). -/
def partitionLeafH {M R : Type} [LT R] [DecidableLT R] (dist : M → M → R) (pmu : List M) (final : List Bool)
    (es : List (Int × Int)) (vtx : Int) (pclsIn vtxDesc : List Bool) (h : MHeap) (a : Nat) : MHeap × Py Unit :=
  match readMaskArr h a with
  | .error e => (h, .error e)
  | .ok mask =>
    match (Key.mask mask).apply (es.map (fun e => e.2)) with
    | .error e => (h, .error e)
    | .ok dsts =>
      if dsts.contains vtx then
        match partitionVertex dist pmu final pclsIn vtxDesc mask with
        | .error e => (h ++ [HObj.buf mask, HObj.mask h.length], .error e)
        | .ok d => ((h ++ [HObj.buf d, HObj.mask h.length]).set a (.mask h.length), .ok ())
      else (h, .ok ())

/-- The loop over the items of a nested group, graphicle/select.py:888-891. -/
def walkKidsH (walk : MHeap → Nat → MHeap × Py Unit) : MHeap → List (String × Nat) → MHeap × Py Unit
  | h, [] => (h, .ok ())
  | h, (k, v) :: rest =>
    if k = "latent" then walkKidsH walk h rest
    else
      match walk h v with
      | (h1, .error e) => (h1, .error e)
      | (h1, .ok ()) => walkKidsH walk h1 rest

/-- Running the body of the loop on the leaves below an object, in the order of `_leaf_mask_iter`
(graphicle/select.py:877-891), to the given depth. -/
def walkH (act : MHeap → Nat → MHeap × Py Unit) : Nat → MHeap → Nat → MHeap × Py Unit
  | 0, h, _ => (h, .error .recursionError)
  | fuel + 1, h, a =>
    match h[a]? with
    | some (.group _ es) => walkKidsH (walkH act fuel) h es
    | some (.mask _) => act h a
    | _ => (h, .error .attributeError)

/-- The loop `for name, branch in hier.items()`, graphicle/select.py:464-475 (a top-level `latent` is not skipped). -/
def walkTopH (walk : MHeap → Nat → MHeap × Py Unit) : MHeap → List (String × Nat) → MHeap × Py Unit
  | h, [] => (h, .ok ())
  | h, (_, v) :: rest =>
    match walk h v with
    | (h1, .error e) => (h1, .error e)
    | (h1, .ok ()) => walkTopH walk h1 rest

/-- The outer loop, graphicle/select.py:462-475, on the members of the copy. -/
def partitionLoopH {M R : Type} [LT R] [DecidableLT R] (dist : M → M → R) (pmu : List M) (final : List Bool)
    (es : List (Int × Int)) (fuel : Nat) (entries : List (String × Nat)) :
    MHeap → List (Int × List Bool) → MHeap × Py Unit
  | h, [] => (h, .ok ())
  | h, (v, pclsIn) :: rest =>
    match vertexDescendants es v with
    | .error e => (h, .error e)
    | .ok vtxDesc =>
      match walkTopH (walkH (partitionLeafH dist pmu final es v pclsIn vtxDesc) fuel) h entries with
      | (h1, .error e) => (h1, .error e)
      | (h1, .ok ()) => partitionLoopH dist pmu final es fuel entries h1 rest

/-- Lines 461-476 of graphicle/select.py: copy the group at `a`, run the loops and return the copy.
Helper of `partitionDescendantsH` (graphicle/select.py:424-476). -/
def partitionCopyH {M R : Type} [LT R] [DecidableLT R] (dist : M → M → R) (pmu : List M) (final : List Bool)
    (es : List (Int × Int)) (fuel : Nat) (h : MHeap) (a : Nat) (vps : List (Int × List Bool)) : MHeap × Py Nat :=
  match copyObj (fuel + 1) h a with
  | .error e => (h, .error e)
  | .ok (h1, b) =>
    match h1[b]? with
    | some (.group _ entries) =>
      match partitionLoopH dist pmu final es fuel entries h1 vps with
      | (h2, .error e) => (h2, .error e)
      | (h2, .ok ()) => (h2, .ok b)
    | _ => (h1, .error .attributeError)

/-- `partition_descendants`, graphicle/select.py:424-476, for the group at `a`: the heap afterwards and the address of
the group returned; `fuel` bounds the recursions. -/
def partitionDescendantsH {M R : Type} [LT R] [DecidableLT R] (dist : M → M → R) (pmu : List M) (final : List Bool)
    (status : List Int) (es : List (Int × Int)) (fuel : Nat) (h : MHeap) (a : Nat) : MHeap × Py Nat :=
  match readMask (fuel + 1) h a with
  | .error e => (h, .error e)
  | .ok (.arr _) => (h, .error .attributeError)
  | .ok (.grp _ ks) =>
    match groupOr ks with
    | .error e => (h, .error e)
    | .ok fromHard =>
      match hadronVertices es status with
      | .error e => (h, .error e)
      | .ok vtxs =>
        match hadronVtxPartons es fromHard vtxs with
        | .error e => (h, .error e)
        | .ok vps => partitionCopyH dist pmu final es fuel h a vps

end Gcl
