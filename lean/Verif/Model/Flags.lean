import Verif.Model.Hard
import Verif.Model.Heap
import Verif.Model.Adj
import Verif.Model.Select
/-!
# Model of flag arguments that are not the two booleans

Some functions compare a flag with `is True` or `is False` (graphicle/data.py:929, 1226, 2117, 2619, 2622,
select.py:1060), others take its truth value (numpy's `isin` of `invert`, select.py:690, 699, 703).  Here the arguments are
any Python objects, of which only the identity with `True` and `False` and the truth value matter; the other models take
booleans.
-/
namespace Gcl
set_option autoImplicit false

/-- A flag argument: `True`, `False`, or another object (`1`, `0`, `numpy.bool_`, `None`, ...) with its truth value.
Argument of `recursive_drop`, `PdgArray.mask`, `in_range`, `from_matrix`, `color_singlets`, `hard_descendants`
(graphicle/data.py:906-936, 1195-1230, 2090-2123, 2589-2624, select.py:635-713, 1001-1064). -/
inductive PyFlag where
  | tru
  | fls
  | truthy
  | falsy
  deriving DecidableEq

/-- `flag is True` (graphicle/data.py:2619, 2622, select.py:1060). -/
def PyFlag.isTrue : PyFlag → Bool
  | .tru => true
  | _ => false

/-- `flag is False` (graphicle/data.py:929, 1226, 2117). -/
def PyFlag.isFalse : PyFlag → Bool
  | .fls => true
  | _ => false

/-- `bool(flag)` (graphicle/select.py:690, 699, 703). -/
def PyFlag.truth : PyFlag → Bool
  | .tru => true
  | .truthy => true
  | .fls => false
  | .falsy => false

/-- A boolean as an argument.  Helper of the functions below (graphicle/data.py:929, 1226, 2117, 2619, 2622). -/
def PyFlag.ofBool : Bool → PyFlag
  | true => .tru
  | false => .fls

/-- `PdgArray.mask` (graphicle/data.py:1195-1230).  numpy's `isin` takes the truth value of `invert`. -/
def pdgMaskFlag (data target : List Int) (blacklist signSensitive : PyFlag) : List Bool :=
  let data := if signSensitive.isFalse then data.map (absWrap 32) else data
  isin data target blacklist.truth

/-- `StatusArray.in_range` (graphicle/data.py:2090-2123). -/
def inRangeFlag (data : List Int) (lo : Int) (hi : Option Int) (signSensitive : PyFlag) : List Bool :=
  let array := if signSensitive.isFalse then data.map (absWrap 16) else data
  let moreThan := array.map (fun x => decide (lo ≤ x))
  match hi with
  | none => moreThan
  | some h =>
    let lessThan := array.map (fun x => decide (x ≤ h))
    List.zipWith (· && ·) moreThan lessThan

/-- The block `if target is not None` of `hard_descendants` (graphicle/select.py:689-706): it takes the truth value of
`sign_sensitive` itself, and hands the object on to `PdgArray.mask`. -/
def filterTargetFlag (g : HardGraph) (target : List Int) (signSensitive strict : PyFlag) : Py HardGraph :=
  let targetPdgs := if signSensitive.truth then target else target.map (fun c => (c.natAbs : Int))
  let targetMask := pdgMaskFlag g.pdg targetPdgs .fls signSensitive
  if !(targetMask.any id) then .error .valueError
  else
    match (Key.mask targetMask).apply g.pdg with
    | .error e => .error e
    | .ok found =>
      let found := if signSensitive.truth then found else found.map (absWrap 32)
      let missing := targetPdgs.filter (fun c => !(found.contains c))
      if strict.truth && !missing.isEmpty then .error .valueError
      else g.get targetMask

/-- `filterTargetFlag` when a target is given.
Helper of `hardDescendantsFlag` (graphicle/select.py:635-713). -/
def applyTargetFlag (g : HardGraph) (target : Option (List Int)) (signSensitive strict : PyFlag) : Py HardGraph :=
  match target with
  | none => .ok g
  | some t => filterTargetFlag g t signSensitive strict

/-- `hard_descendants` (graphicle/select.py:635-713). -/
def hardDescendantsFlag (nm : Int → String) (pdg status : List Int) (es : List (Int × Int))
    (target : Option (List Int)) (signSensitive strict : PyFlag) : Py (Dict (List Bool)) :=
  match hardGroup status with
  | .error e => .error e
  | .ok hg =>
    match groupOr hg with
    | .error e => .error e
    | .ok hard =>
      match HardGraph.get ⟨pdg, es⟩ hard with
      | .error e => .error e
      | .ok g =>
        match applyTargetFlag g target signSensitive strict with
        | .error e => .error e
        | .ok g' =>
          let keys := pdgsToKeys (g'.pdg.map nm)
          match descMasks es (g'.edges.map (fun e => e.2)) with
          | .error e => .error e
          | .ok descs =>
            markAll (Dict.ofPairs (keys.zip descs)) (keys.zip (trueIdxs hard))

/-- `recursive_drop(key, inplace)` (graphicle/data.py:906-936): a copy is made if `inplace is False` only. -/
def recursiveDropFlag (fuel : Nat) (key : String) (inplace : PyFlag) (h : MHeap) (a : Nat) : MHeap × Py Nat :=
  if inplace.isFalse then
    match copyObj fuel h a with
    | .error e => (h, .error e)
    | .ok (h1, b) =>
      match dropInPlace fuel key h1 b with
      | (h2, .ok ()) => (h2, .ok b)
      | (h2, .error e) => (h2, .error e)
  else
    match dropInPlace fuel key h a with
    | (h1, .ok ()) => (h1, .ok a)
    | (h1, .error e) => (h1, .error e)

/-- `from_matrix` (graphicle/data.py:2589-2624). -/
def fromMatrixFlag {W : Type} [Zero W] [DecidableEq W] (A : List (List W)) (weighted selfLoop : PyFlag) : Adj W :=
  let t := cooOfDense A
  let t := if selfLoop.isTrue then setdiagZero A.length t else t
  { edges := t.map (fun e => ((e.1 : Int), (e.2.1 : Int)))
    weights := if weighted.isTrue then t.map (fun e => e.2.2) else [] }

/-- `color_singlets` (graphicle/select.py:1001-1064); see `colorSinglets` for `setIter`. -/
def colorSingletsFlag (setIter : List String → List String) (leaves : Dict (List Bool)) (status : List Int)
    (color : List (Int × Int)) (invert : PyFlag) : Py (List (List String)) :=
  match singletParts leaves status color with
  | .error e => .error e
  | .ok (keys, singlets) =>
    if invert.isTrue then
      let members := singlets.flatten
      let outcasts := (keys.filter (fun k => !(members.contains k))) ++
        (members.filter (fun k => !(keys.contains k)))
      .ok ((setIter outcasts.dedup).map (fun k => [k]))
    else .ok singlets

end Gcl
