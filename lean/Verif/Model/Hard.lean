import Verif.Model.Descend
/-!
# Model of the hard-process functions

graphicle/select.py:479-875: parton keys, `hard_descendants`, `hierarchy`.

The particle-name table is a parameter `nm` (the string shown for a PDG code).  A
`MaskGroup[MaskArray]` is a dictionary of boolean lists.  Simplification: `_make_tree` sets entries of
a leaf mask inside `desc` in place; here the changed mask is only put into the tree.  `Model/HierMem.lean`
models the writes on a heap, and C116 proves that both agree.
-/
namespace Gcl
set_option autoImplicit false

/-- `map(next, map(counters.__getitem__, names))` with `counters = defaultdict(itertools.count)`,
graphicle/select.py:625-626: each name gets the number its counter shows and increments it. -/
def dupNumbers (counters : String → Nat) : List String → List Nat
  | [] => []
  | x :: rest =>
    counters x :: dupNumbers (fun y => if y = x then counters x + 1 else counters y) rest

/-- `_pdgs_to_keys`, graphicle/select.py:612-632, on the list of particle names. -/
def pdgsToKeys (names : List String) : List String :=
  let hasDup := names.map (fun x => decide (1 < names.count x))
  if !(hasDup.any id) then names
  else
    let nums := dupNumbers (fun _ => 0) names
    let renames := List.zipWith (fun x (n : Nat) => x ++ ":" ++ toString n) names nums
    List.zipWith (fun (p : String × String) dup => if dup then p.2 else p.1)
      (names.zip renames) hasDup

/-- `hard_mask = graph.hard_mask; del hard_mask["incoming"]`, graphicle/select.py:686-687, 801-802. -/
def hardGroup (status : List Int) : Py (Dict Mask) :=
  match hardMask status with
  | .grp _ ks => groupDel ks "incoming"
  | .arr _ => .error .keyError

/-- `graph[mask]` restricted to the two attributes used here, edges and PDG codes
(graphicle/data.py:2710-2711, 2174-2177). -/
structure HardGraph where
  pdg : List Int
  edges : List (Int × Int)

/-- Subscript both attributes.
Helper of `filterTarget` (graphicle/select.py:689-706). -/
def HardGraph.get (g : HardGraph) (m : List Bool) : Py HardGraph :=
  match getCol (.mask m) g.pdg with
  | .error e => .error e
  | .ok pdg =>
    match getCol (.mask m) g.edges with
    | .error e => .error e
    | .ok edges => .ok ⟨pdg, edges⟩

/-- The block `if target is not None`, graphicle/select.py:689-706: filters the hard partons. -/
def filterTarget (g : HardGraph) (target : List Int) (signSensitive strict : Bool) : Py HardGraph :=
  let targetPdgs := if signSensitive then target else target.map (fun c => (c.natAbs : Int))
  let targetMask := pdgMask g.pdg targetPdgs false signSensitive
  if !(targetMask.any id) then .error .valueError
  else
    match (Key.mask targetMask).apply g.pdg with
    | .error e => .error e
    | .ok found =>
      let found := if signSensitive then found else found.map (absWrap 32)
      let missing := targetPdgs.filter (fun c => !(found.contains c))
      if strict && !missing.isEmpty then .error .valueError
      else g.get targetMask

/-- `filterTarget` when a target is given.
Helper of `hardDescendants` (graphicle/select.py:635-713). -/
def applyTarget (g : HardGraph) (target : Option (List Int)) (signSensitive strict : Bool) :
    Py HardGraph :=
  match target with
  | none => .ok g
  | some t => filterTarget g t signSensitive strict

/-- `map(vertex_descendants, repeat(adj), vertices)`, graphicle/select.py:708-709. -/
def descMasks (es : List (Int × Int)) : List Int → Py (List (List Bool))
  | [] => .ok []
  | v :: rest =>
    match vertexDescendants es v with
    | .error e => .error e
    | .ok d =>
      match descMasks es rest with
      | .error e => .error e
      | .ok ds => .ok (d :: ds)

/-- `group[key][idx] = True` for one key, graphicle/select.py:712. -/
def markOne (group : Dict (List Bool)) (key : String) (idx : Nat) : Py (Dict (List Bool)) :=
  match Dict.get? group key with
  | none => .error .keyError
  | some d => if idx < d.length then .ok (Dict.set group key (d.set idx true)) else .error .indexError

/-- The loop `for key, idx in zip(...): group[key][idx] = True`, graphicle/select.py:711-712
(also 820-821). -/
def markAll (group : Dict (List Bool)) : List (String × Nat) → Py (Dict (List Bool))
  | [] => .ok group
  | (key, idx) :: rest =>
    match markOne group key idx with
    | .error e => .error e
    | .ok g => markAll g rest

/-- `hard_descendants`, graphicle/select.py:635-713. -/
def hardDescendants (nm : Int → String) (pdg status : List Int) (es : List (Int × Int))
    (target : Option (List Int)) (signSensitive strict : Bool) : Py (Dict (List Bool)) :=
  match hardGroup status with
  | .error e => .error e
  | .ok hg =>
    match groupOr hg with
    | .error e => .error e
    | .ok hard =>
      match HardGraph.get ⟨pdg, es⟩ hard with
      | .error e => .error e
      | .ok g =>
        match applyTarget g target signSensitive strict with
        | .error e => .error e
        | .ok g' =>
          let keys := pdgsToKeys (g'.pdg.map nm)
          match descMasks es (g'.edges.map (fun e => e.2)) with
          | .error e => .error e
          | .ok descs =>
            markAll (Dict.ofPairs (keys.zip descs)) (keys.zip (trueIdxs hard))

/-! ## hierarchy -/

/-- `mat[i, :] = mask.data`, graphicle/select.py:503: exact length, or one value broadcast. -/
def matRow (n : Nat) (d : List Bool) : Py (List Bool) :=
  if d.length = n then .ok d
  else match d with
    | [b] => .ok (List.replicate n b)
    | _ => .error .valueError

/-- Rows of `_hard_ancestor_matrix` from row `i` on, graphicle/select.py:502-503. -/
def ancestorRows (n : Nat) : Nat → List (List Bool) → Py (List (List Bool))
  | _, [] => .ok []
  | i, d :: ds =>
    match matRow n d with
    | .error e => .error e
    | .ok r =>
      match ancestorRows n (i + 1) ds with
      | .error e => .error e
      | .ok rs => .ok (r.set i false :: rs)

/-- `_hard_ancestor_matrix`, graphicle/select.py:479-505. -/
def ancestorMatrix (hardDesc : Dict (List Bool)) : Py (List (List Bool)) :=
  ancestorRows hardDesc.length 0 (hardDesc.map Prod.snd)

/-- Number of true entries.
Helper of `parentMatrix` (graphicle/select.py:508-538). -/
def popcount (r : List Bool) : Nat := r.count true

/-- Insertion keeping equal keys in order, as Python's stable `sorted` (applied from the right).
Helper of `sortByKey` (graphicle/select.py:508-538). -/
def insertByKey (key : Nat → Nat) (i : Nat) : List Nat → List Nat
  | [] => [i]
  | j :: js => if key i ≤ key j then i :: j :: js else j :: insertByKey key i js

/-- `sorted(rows, key=np.sum)` on row indices; stable, ascending.
Helper of `parentMatrix` (graphicle/select.py:508-538). -/
def sortByKey (key : Nat → Nat) (l : List Nat) : List Nat := l.foldr (insertByKey key) []

/-- `row_i[row_j] = False`.
Helper of `parentStep` (graphicle/select.py:536-537). -/
def clearWhere (ri rj : List Bool) : List Bool := List.zipWith (fun a b => a && !b) ri rj

/-- One iteration of the loop of `_hard_parent_matrix`, graphicle/select.py:536-537. -/
def parentStep (A : List (List Bool)) (p : Nat × Nat) : List (List Bool) :=
  if p.1 = p.2 then A
  else A.set p.1 (clearWhere (A[p.1]?.getD []) (A[p.2]?.getD []))

/-- `_hard_parent_matrix`, graphicle/select.py:508-538: rows with an entry, stably sorted by their
number of entries; every row, the largest first, is cleared where any other row has an entry. -/
def parentMatrix (A : List (List Bool)) : List (List Bool) :=
  let nonEmpty := (List.range A.length).filter (fun i => (A[i]?.getD []).any id)
  let asc := sortByKey (fun i => popcount (A[i]?.getD [])) nonEmpty
  let rowPairs := asc.reverse.flatMap (fun i => asc.map (fun j => (i, j)))
  rowPairs.foldl parentStep A

/-- `it.compress(names, mask)`.
Helper of `parentDict` (graphicle/select.py:541-572). -/
def compress {α : Type} (names : List α) (m : List Bool) : List α :=
  (names.zip m).filterMap (fun p => if p.2 then some p.1 else none)

/-- `_hard_parent_dict`, graphicle/select.py:541-572. -/
def parentDict (P : List (List Bool)) (names : List String) : Dict (List String) :=
  let parents := (names.zip P).filter (fun p => p.2.any id)
  Dict.ofPairs (parents.map (fun p => (p.1, compress names p.2)))

/-- `_flat_hierarchy`, graphicle/select.py:575-609. -/
def flatHierarchy (hardDesc : Dict (List Bool)) : Py (Dict (List String)) :=
  match ancestorMatrix hardDesc with
  | .error e => .error e
  | .ok A => .ok (parentDict (parentMatrix A) (Dict.keys hardDesc))

/-- `desc[key]` for a group of arrays.
Helper of `leafEntry` (graphicle/select.py:867-873). -/
def descGet (desc : Dict (List Bool)) (key : String) : Py (List Bool) :=
  match Dict.get? desc key with
  | some d => .ok d
  | none => .error .keyError

/-- The leaf case of `_make_tree`, graphicle/select.py:867-873. -/
def leafEntry (es : List (Int × Int)) (desc : Dict (List Bool)) (parton : String) : Py Mask :=
  match descGet desc parton with
  | .error e => .error e
  | .ok mask =>
    match (Key.mask mask).apply (es.map (fun e => e.1)) with
    | .error e => .error e
    | .ok [] => .error .indexError
    | .ok (inEdge :: _) =>
      let initial := es.map (fun e => e.2 == inEdge)
      if initial.count true = 1 then
        match setMask mask initial true with
        | .error e => .error e
        | .ok m => .ok (.arr m)
      else .ok (.arr mask)

/-- `branch[key]["latent"] = branch[key].data != desc[key].data`, graphicle/select.py:855-857,
864-866: the group with its `latent` entry. -/
def addLatent (desc : Dict (List Bool)) (key : String) (sub : Dict Mask) : Py Mask :=
  match groupOr sub with
  | .error e => .error e
  | .ok d =>
    match descGet desc key with
    | .error e => .error e
    | .ok d' =>
      match bcast2 (fun a b => a != b) d d' with
      | .error e => .error e
      | .ok l => .ok (.grp .or (groupSet sub "latent" (.arr l)))

/-- Entries of a branch, in order (`branch[name] = ...`); stops at the first exception.
Helper of `makeTree` (graphicle/select.py:858-874). -/
def buildBranch (f : String → Py Mask) : Dict Mask → List String → Py (Dict Mask)
  | acc, [] => .ok acc
  | acc, x :: rest =>
    match f x with
    | .error e => .error e
    | .ok m => buildBranch f (groupSet acc x m) rest

/-- `_make_tree` with a tuple of names, graphicle/select.py:858-874; the recursion depth is bounded by
`fuel` (exceeding it is reported as Python's `RecursionError`). -/
def makeTree (hard : Dict (List String)) (desc : Dict (List Bool)) (es : List (Int × Int)) :
    Nat → List String → Py (Dict Mask)
  | 0, _ => .error .recursionError
  | fuel + 1, partons =>
    buildBranch (fun parton =>
      match Dict.get? hard parton with
      | some nest =>
        match makeTree hard desc es fuel nest with
        | .error e => .error e
        | .ok sub => addLatent desc parton sub
      | none => leafEntry es desc parton) [] partons

/-- `_make_tree` with the dictionary, graphicle/select.py:851-857: the roots only. -/
def makeTreeTop (hard : Dict (List String)) (desc : Dict (List Bool)) (es : List (Int × Int))
    (fuel : Nat) (roots : List String) : Py (Dict Mask) :=
  buildBranch (fun key =>
    match Dict.get? hard key with
    | some nest =>
      match makeTree hard desc es fuel nest with
      | .error e => .error e
      | .ok sub => addLatent desc key sub
    | none => .error .keyError) []
    ((Dict.keys hard).filter (fun k => roots.contains k))

/-- `keys.difference(keys.intersection(vals))`, graphicle/select.py:813-815. -/
def hierRoots (hard : Dict (List String)) : List String :=
  let keys := Dict.keys hard
  let vals := (hard.map Prod.snd).flatten
  keys.filter (fun k => !(keys.contains k && vals.contains k))

/-- `desc[hard_mask]`, graphicle/select.py:811 (every mask subscripted). -/
def sliceAll (m : List Bool) : Dict (List Bool) → Py (Dict (List Bool))
  | [] => .ok []
  | (k, d) :: rest =>
    match (Key.mask m).apply d with
    | .error e => .error e
    | .ok d' =>
      match sliceAll m rest with
      | .error e => .error e
      | .ok rest' => .ok ((k, d') :: rest')

/-- `group[[names]]`, graphicle/select.py:811 and data.py:788-791. -/
def selectNames (g : Dict (List Bool)) : Dict (List Bool) → List String → Py (Dict (List Bool))
  | acc, [] => .ok acc
  | acc, k :: rest =>
    match Dict.get? g k with
    | none => .error .keyError
    | some d => selectNames g (Dict.set acc k d) rest

/-- The block `if np.any(hard_final)`, graphicle/select.py:817-821: the final hard partons are marked in their own
masks. -/
def markFinal (names : List String) (hard hardFinal : List Bool) (desc : Dict (List Bool)) :
    Py (Dict (List Bool)) :=
  if hardFinal.any id then
    match (Key.mask hard).apply hardFinal with
    | .error e => .error e
    | .ok hf => markAll desc ((compress names hf).zip (trueIdxs hardFinal))
  else .ok desc

/-- The part of `hierarchy` after the early return, graphicle/select.py:811-823.  `hard` is the
boolean mask of the non-incoming hard partons. -/
def hierarchyTree (names : List String) (hard final : List Bool) (es : List (Int × Int))
    (desc : Dict (List Bool)) : Py (Dict Mask) :=
  match sliceAll hard desc with
  | .error e => .error e
  | .ok sliced =>
    match selectNames sliced [] names with
    | .error e => .error e
    | .ok hardDesc =>
      match flatHierarchy hardDesc with
      | .error e => .error e
      | .ok flat =>
        match bcast2 (· && ·) hard final with
        | .error e => .error e
        | .ok hardFinal =>
          match markFinal names hard hardFinal desc with
          | .error e => .error e
          | .ok desc' => makeTreeTop flat desc' es flat.length (hierRoots flat)

/-- `hierarchy`, graphicle/select.py:716-823, with `desc` left out or given.  The result is the
top-level dictionary (its `agg_op` is `or`). -/
def hierarchy (nm : Int → String) (pdg status : List Int) (final : List Bool)
    (es : List (Int × Int)) (desc? : Option (Dict (List Bool))) : Py (Dict Mask) :=
  match hardGroup status with
  | .error e => .error e
  | .ok hg =>
    match groupOr hg with
    | .error e => .error e
    | .ok hard =>
      match (Key.mask hard).apply pdg with
      | .error e => .error e
      | .ok hardPdg =>
        match (match desc? with
          | none => hardDescendants nm pdg status es none false true
          | some d => .ok d) with
        | .error e => .error e
        | .ok desc =>
          match groupGet hg "intermediate" with
          | .error e => .error e
          | .ok m =>
            match m.data with
            | .error e => .error e
            | .ok inter =>
              if !(inter.any id) then .ok (desc.map (fun p => (p.1, Mask.arr p.2)))
              else hierarchyTree (pdgsToKeys (hardPdg.map nm)) hard final es desc

end Gcl
