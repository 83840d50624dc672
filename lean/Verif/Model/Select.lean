import Verif.Model.Centroid
import Verif.Model.DeltaR
import Verif.Model.Hard
/-!
# Model of `color_singlets`, `centroid_prune` and `fastjet_clusters` (graphicle/select.py)

The FastJet package, `np.argsort` (unstable: equal keys may come in any order) and the iteration order of
Python sets are parameters; what is assumed about them is stated in the theorems.
-/
namespace Gcl
set_option autoImplicit false
open Real

/-! ## color_singlets -/

/-- `itertools.combinations(l, k)`.
Helper of `singletParts` (graphicle/select.py:1001-1064). -/
def combos {α : Type} : Nat → List α → List (List α)
  | 0, _ => [[]]
  | _ + 1, [] => []
  | k + 1, x :: xs => (combos k xs).map (x :: ·) ++ combos (k + 1) xs

/-- `map(op.and_, it.repeat(hard_mask), leaves.values())`, graphicle/select.py:1044. -/
def andAll (hard : List Bool) : List (List Bool) → Py (List (List Bool))
  | [] => .ok []
  | m :: ms =>
    match bcast2 (· && ·) hard m with
    | .error e => .error e
    | .ok r =>
      match andAll hard ms with
      | .error e => .error e
      | .ok rs => .ok (r :: rs)

/-- `set(a) == set(b)`.
Helper of `isSinglet` (graphicle/select.py:1055-1059). -/
def setEq (a b : List Int) : Bool := a.all (b.contains ·) && b.all (a.contains ·)

/-- The test of one combination, graphicle/select.py:1055-1059. -/
def isSinglet (combo : List (String × (Int × Int))) : Bool :=
  setEq (combo.map (fun p => p.2.1)) (combo.map (fun p => p.2.2))

/-- `status.hard_mask["outgoing"]`, graphicle/select.py:1043 (data.py:2126-2143). -/
def outgoingMask (status : List Int) : Py (List Bool) :=
  match hardMask status with
  | .grp _ ks =>
    match groupGet ks "outgoing" with
    | .error e => .error e
    | .ok m => m.data
  | .arr _ => .error .keyError

/-- Lines 1040-1056 of graphicle/select.py: the keys of the coloured leaves and the list of singlets.
Helper of `colorSinglets` (graphicle/select.py:1001-1064). -/
def singletParts (leaves : Dict (List Bool)) (status : List Int) (color : List (Int × Int)) :
    Py (List String × List (List String)) :=
  match outgoingMask status with
  | .error e => .error e
  | .ok hard =>
    match andAll hard (leaves.map Prod.snd) with
    | .error e => .error e
    | .ok masks =>
      let colors := (masks.map (compress color)).flatten
      let coloredMask := colors.map (fun c => c != ((0 : Int), (0 : Int)))
      let coloredOnly := compress colors coloredMask
      let keys := compress (Dict.keys leaves) coloredMask
      let named := keys.zip coloredOnly
      let cs := combos 2 named ++ combos 3 named
      .ok (keys, (cs.filter isSinglet).map (fun combo => combo.map Prod.fst))

/-- `color_singlets`, graphicle/select.py:1001-1064.  `setIter` lists the elements of a set (given as a
duplicate-free list) in the order Python iterates over it. -/
def colorSinglets (setIter : List String → List String) (leaves : Dict (List Bool)) (status : List Int)
    (color : List (Int × Int)) (invert : Bool) : Py (List (List String)) :=
  match singletParts leaves status color with
  | .error e => .error e
  | .ok (keys, singlets) =>
    if invert then
      let members := singlets.flatten
      let outcasts := (keys.filter (fun k => !(members.contains k))) ++
        (members.filter (fun k => !(keys.contains k)))
      .ok ((setIter outcasts.dedup).map (fun k => [k]))
    else .ok singlets

/-! ## centroid_prune -/

/-- `np.hypot` on floating-point values: infinite if a component is infinite, else nan if one is nan.
Helper of `withinCentre` (graphicle/select.py:993-994). -/
noncomputable def npHypot (a b : Fl) : Fl :=
  match a, b with
  | .pinf, _ => .pinf
  | .ninf, _ => .pinf
  | _, .pinf => .pinf
  | _, .ninf => .pinf
  | .nan, _ => .nan
  | _, .nan => .nan
  | .fin x, .fin y => .fin (sqrt (x ^ 2 + y ^ 2))

/-- `dist < radius`: false for nan.
Helper of `withinCentre` (graphicle/select.py:993-994). -/
noncomputable def Fl.ltB (a : Fl) (r : ℝ) : Bool :=
  match a with
  | .fin x => decide (x < r)
  | .ninf => true
  | .pinf => false
  | .nan => false

/-- `np.angle(w * np.exp(complex(0, phi)).conj())`, graphicle/select.py:992-993; a non-finite `phi` gives
nan. -/
noncomputable def angleFrom (w : ℂ) (phi : Fl) : Fl :=
  match phi with
  | .fin f => .fin (w * (starRingEnd ℂ) (Complex.exp (f * Complex.I))).arg
  | _ => .nan

/-- `dist < radius` for one particle, graphicle/select.py:993-994. -/
noncomputable def withinCentre (radius : ℝ) (centre : Fl × Fl) (p : P4) : Bool :=
  (npHypot (p.eta.sub centre.1) (angleFrom p.xyPol centre.2)).ltB radius

/-- Lines 988-994 of graphicle/select.py: choose the centre and compare.
Helper of `centroidPrune` (graphicle/select.py:947-998). -/
noncomputable def isWithin (tol : ℝ) (ps : List P4) (radius : ℝ) (centre : Option (Fl × Fl)) :
    List Bool :=
  let c := match centre with
    | none => resultantCoords tol ps true
    | some c => c
  ps.map (withinCentre radius c)

/-- `centroid_prune`, graphicle/select.py:986-998, for a `MomentumArray`; `centroidPruneCall` checks that it is one. -/
noncomputable def centroidPrune (tol : ℝ) (pmu : List P4) (radius : ℝ) (mask : Option (List Bool))
    (centre : Option (Fl × Fl)) : Py (List Bool) :=
  match mask with
  | none => .ok (isWithin tol pmu radius centre)
  | some m =>
    match (Key.mask m).apply pmu with
    | .error e => .error e
    | .ok sel => setMaskVals (List.replicate m.length false) m (isWithin tol sel radius centre)

/-- The object passed as `pmu`: a `MomentumArray` or anything else.
Helper of `paramCheck` (graphicle/select.py:48-55, 985). -/
inductive PmuArg where
  | momentum (ps : List P4)
  | other

/-- `_param_check(pmu, "pmu", gcl.MomentumArray)` (graphicle/select.py:48-55, 985): the check, and the array it lets through. -/
def paramCheck : PmuArg → Py (List P4)
  | .momentum ps => .ok ps
  | .other => .error .valueError

/-- `centroid_prune`, graphicle/select.py:947-998: the check comes before everything else. -/
noncomputable def centroidPruneCall (tol : ℝ) (pmu : PmuArg) (radius : ℝ) (mask : Option (List Bool))
    (centre : Option (Fl × Fl)) : Py (List Bool) :=
  match paramCheck pmu with
  | .error e => .error e
  | .ok ps => centroidPrune tol ps radius mask centre

/-! ## fastjet_clusters -/

/-- The clustering algorithms of FastJet that are used (graphicle/select.py:141-148). -/
inductive FjAlgo where
  | antikt
  | cambridge
  | kt
  | genkt (p : ℝ)

/-- A jet FastJet found: its four-momentum and the positions of its constituents.
Helper of `fastjetClusters` (graphicle/select.py:58-165). -/
structure Jet where
  pmu : P4
  constituents : List Nat

/-- The `top_k` argument: left out, an integer, or a number that is not an `int`.
Helper of `TopK.bad` (graphicle/select.py:130-133). -/
inductive TopK where
  | none
  | int (k : Int)
  | other

/-- The check of `top_k`, graphicle/select.py:130-133. -/
def TopK.bad : TopK → Bool
  | .none => false
  | .int k => decide (k < 1)
  | .other => true

/-- `jet_idxs_[:top_k]`, graphicle/select.py:159. -/
def TopK.cut {α : Type} : TopK → List α → List α
  | .int k, l => l.take k.toNat
  | _, l => l

/-- Selection of the algorithm, graphicle/select.py:139-148. -/
noncomputable def fjAlgo (pVal : ℝ) : FjAlgo :=
  if pVal = -1 then .antikt
  else if pVal = 0 then .cambridge
  else if pVal = 1 then .kt
  else .genkt pVal

/-- `mask[jet_idx] = True` on a zero mask of length `n`, graphicle/select.py:162-164. -/
def jetMask (n : Nat) (idxs : List Nat) : Py (List Bool) :=
  if idxs.all (fun i => decide (i < n)) then
    .ok (idxs.foldl (fun m i => m.set i true) (List.replicate n false))
  else .error .indexError

/-- The loop over the jets, graphicle/select.py:162-165. -/
def jetMasks (n : Nat) : List (List Nat) → Py (List (List Bool))
  | [] => .ok []
  | is :: rest =>
    match jetMask n is with
    | .error e => .error e
    | .ok m =>
      match jetMasks n rest with
      | .error e => .error e
      | .ok ms => .ok (m :: ms)

/-- `np.abs(eta) < eta_cut`.
Helper of `fastjetClusters` (graphicle/select.py:58-165). -/
noncomputable def etaWithin (eta : Fl) (cut : ℝ) : Bool :=
  match eta with
  | .fin x => decide (|x| < cut)
  | _ => false

/-- `fastjet_clusters`, graphicle/select.py:58-165.  `fj` is FastJet: momenta, algorithm, radius and
minimal `pt` to jets; `argsort` is `np.argsort`. -/
noncomputable def fastjetClusters (fj : List P4 → FjAlgo → ℝ → ℝ → List Jet)
    (argsort : List ℝ → List Nat) (pmu : List P4) (radius pVal : ℝ) (ptCut etaCut : Option ℝ)
    (topK : TopK) : Py (List (List Bool)) :=
  if decide (ptCut.getD 0 < 0) then .error .valueError
  else if decide (radius < 0) then .error .valueError
  else if topK.bad then .error .valueError
  else
    let jets := fj pmu (fjAlgo pVal) radius (ptCut.getD 0)
    let sorted := gather jets (argsort (jets.map (fun j => j.pmu.pt))).reverse
    match etaCut with
    | none => jetMasks pmu.length (topK.cut (sorted.map Jet.constituents))
    | some cut =>
      if decide (cut < 0) then .error .valueError
      else
        let kept := sorted.filter (fun j => etaWithin j.pmu.eta cut)
        jetMasks pmu.length (topK.cut (kept.map Jet.constituents))

end Gcl
