import Verif.Spec.Ufunc
import Verif.Props.Convert
/-!
# Property C88: numpy functions keep or drop the wrapper as documented

`compute` is the universal function on bare operands and `cast c` the conversion of one element to the dtype of
class `c`; both are arbitrary.
-/
namespace Gcl
set_option autoImplicit false
open Spec

variable {α : Type} (cast : Cls → α → α) (compute : List (Opd α) → List (Opd α) → Py (URes α))
  (method : String) (axis : Option Int)

theorem override_eq_nil (ops : List (Opd α)) (h : ∀ d a, Opd.wrapped d a ∉ ops) :
    ops.filterMap Opd.override = [] := by
  rw [List.filterMap_eq_nil_iff]
  intro x hx
  cases x with
  | wrapped d a => exact absurd hx (h d a)
  | _ => rfl

theorem unwrap_bare (c : Cls) (ops : List (Opd α)) (h : ∀ d a, Opd.wrapped d a ∈ ops → d = c) :
    ops.map (Opd.unwrap c) = ops.map bare := by
  apply List.map_congr_left
  intro x hx
  cases x with
  | wrapped d a =>
    have := h d a hx
    subst this
    simp [Opd.unwrap, bare]
  | _ => rfl

theorem bare_not_wrapped (ops : List (Opd α)) (d : Cls) (a : Nd α) : Opd.wrapped d a ∉ ops.map bare := by
  intro h
  obtain ⟨x, -, hx⟩ := List.mem_map.1 h
  cases x <;> simp [bare] at hx

theorem handled_iff (ops : List (Opd α)) : ops.all Opd.handled = true ↔ Supported ops := by
  rw [List.all_eq_true]
  constructor
  · intro h hm
    have := h _ hm
    cases this
  · intro h x hx
    cases x with
    | other => exact absurd hx h
    | _ => rfl

theorem override_cons (c : Cls) (ops : List (Opd α)) (h : OnlyClass c ops) :
    ∃ cs, ops.filterMap Opd.override = c :: cs := by
  obtain ⟨⟨a, ha⟩, hall⟩ := h
  have hmem : c ∈ ops.filterMap Opd.override := List.mem_filterMap.2 ⟨_, ha, rfl⟩
  have heq : ∀ d ∈ ops.filterMap Opd.override, d = c := by
    intro d hd
    obtain ⟨x, hx, hd⟩ := List.mem_filterMap.1 hd
    cases x with
    | wrapped e b =>
      simp only [Opd.override, Option.some.injEq] at hd
      subst hd
      exact hall _ _ hx
    | _ => cases hd
  cases hl : ops.filterMap Opd.override with
  | nil => rw [hl] at hmem; cases hmem
  | cons d cs =>
    rw [heq d (by rw [hl]; simp)]
    exact ⟨cs, rfl⟩

/-- The call with operands of one class: the function is computed on the bare operands and its result treated
once. -/
theorem npCall_one (fuel : Nat) (c : Cls) (inputs outs : List (Opd α)) (hs : Supported (inputs ++ outs))
    (hc : OnlyClass c (inputs ++ outs)) :
    npCall cast compute method axis (fuel + 2) inputs outs =
      match compute (inputs.map bare) (outs.map bare) with
      | .error e => .error e
      | .ok r => c.finish cast method axis r := by
  obtain ⟨cs, hcs⟩ := override_cons c _ hc
  have hi := unwrap_bare c inputs (fun d a h => hc.2 d a (List.mem_append_left _ h))
  have ho := unwrap_bare c outs (fun d a h => hc.2 d a (List.mem_append_right _ h))
  have hinner : npCall cast compute method axis (fuel + 1) (inputs.map bare) (outs.map bare) =
      compute (inputs.map bare) (outs.map bare) := by
    rw [npCall, ← List.map_append, override_eq_nil _ (fun d a => bare_not_wrapped _ d a)]
  rw [npCall, hcs]
  simp only [tryOverrides, arrayUfunc, (handled_iff _).2 hs, if_true, hi, ho, hinner]
  cases compute (inputs.map bare) (outs.map bare) with
  | error e => rfl
  | ok r =>
    simp only
    cases c.finish cast method axis r <;> rfl

/-- C88, unsupported operands: `__array_ufunc__` of every class gives `NotImplemented`, so that numpy raises
`TypeError`. -/
theorem C88_unsupported (fuel : Nat) (inputs outs : List (Opd α)) (h : Opd.other ∈ inputs ++ outs) :
    (∀ (c : Cls) (call : List (Opd α) → List (Opd α) → Py (URes α)),
      arrayUfunc cast call c method axis inputs outs = .ok none) ∧
    ((∃ c a, Opd.wrapped c a ∈ inputs ++ outs) →
      npCall cast compute method axis (fuel + 1) inputs outs = .error .typeError) := by
  have hn : ¬ ((inputs ++ outs).all Opd.handled = true) := by
    rw [handled_iff]
    exact fun hs => hs h
  have h1 : ∀ (c : Cls) (call : List (Opd α) → List (Opd α) → Py (URes α)),
      arrayUfunc cast call c method axis inputs outs = .ok none := by
    intro c call
    simp only [arrayUfunc, if_neg hn]
  refine ⟨h1, ?_⟩
  rintro ⟨c, a, hm⟩
  have hall : ∀ cs : List Cls, tryOverrides (fun d => arrayUfunc cast
      (npCall cast compute method axis fuel) d method axis inputs outs) cs = .error .typeError := by
    intro cs
    induction cs with
    | nil => rfl
    | cons d cs ih => simp only [tryOverrides, h1]; simpa only [h1] using ih
  rw [npCall]
  have hm' : c ∈ (inputs ++ outs).filterMap Opd.override := List.mem_filterMap.2 ⟨_, hm, rfl⟩
  cases hl : (inputs ++ outs).filterMap Opd.override with
  | nil => rw [hl] at hm'; cases hm'
  | cons d cs => exact hall (d :: cs)

/-- C88, supported operands of one class `c`: errors are passed on; `'at'` gives `None`; a scalar or 0-d result,
and the result of a reduction along axis 1, is given bare; a boolean array becomes a `MaskArray`; any other
array, and each of several results, becomes an instance of `c`. -/
theorem C88_result (fuel : Nat) (c : Cls) (inputs outs : List (Opd α)) (hs : Supported (inputs ++ outs))
    (hc : OnlyClass c (inputs ++ outs)) :
    let call := npCall cast compute method axis (fuel + 2) inputs outs
    let computed := compute (inputs.map bare) (outs.map bare)
    (∀ e, computed = .error e → call = .error e) ∧
    (∀ v, computed = .ok (.one v) → method = "at" → call = .ok .none) ∧
    (computed = .ok .none → method = "at" → call = .ok .none) ∧
    (∀ x, computed = .ok (.one (.scalar x)) → method ≠ "at" → call = .ok (.one (.scalar x))) ∧
    (∀ a, computed = .ok (.one (.array true a)) → method ≠ "at" →
      call = match Cls.mask.make cast (.array true a) with | .ok w => .ok (.one w) | .error e => .error e) ∧
    (∀ a, computed = .ok (.one (.array false a)) → method ≠ "at" → (a.shape = [] ∨ axis = some 1) →
      call = .ok (.one (.array false a))) ∧
    (∀ a, computed = .ok (.one (.array false a)) → method ≠ "at" → a.shape ≠ [] → axis ≠ some 1 →
      call = match c.make cast (.array false a) with | .ok w => .ok (.one w) | .error e => .error e) ∧
    (∀ vs, computed = .ok (.tuple vs) →
      call = match c.makeAll cast vs with | .ok ws => .ok (.tuple ws) | .error e => .error e) ∧
    (computed = .ok .none → method ≠ "at" → call = .error .attributeError) := by
  intro call computed
  have hcall : call = match computed with
      | .error e => .error e
      | .ok r => c.finish cast method axis r := npCall_one cast compute method axis fuel c inputs outs hs hc
  refine ⟨?_, ?_, ?_, ?_, ?_, ?_, ?_, ?_, ?_⟩
  · intro e h; rw [hcall, h]
  · intro v h hm; rw [hcall, h]; simp [Cls.finish, hm]
  · intro h hm; rw [hcall, h]; simp [Cls.finish, hm]
  · intro x h hm; rw [hcall, h]; simp [Cls.finish, hm]
  · intro a h hm
    rw [hcall, h]
    simp only [Cls.finish, if_neg hm]
    cases Cls.mask.make cast (.array true a) <;> rfl
  · intro a h hm ha; rw [hcall, h]; simp only [Cls.finish, if_neg hm, if_pos ha]
  · intro a h hm h1 h2
    have : ¬ (a.shape = [] ∨ axis = some 1) := by
      rintro (h3 | h3)
      · exact h1 h3
      · exact h2 h3
    rw [hcall, h]
    simp only [Cls.finish, if_neg hm, if_neg this]
    cases c.make cast (.array false a) <;> rfl
  · intro vs h
    rw [hcall, h]
    simp only [Cls.finish]
    cases c.makeAll cast vs <;> rfl
  · intro h hm; rw [hcall, h]; simp [Cls.finish, hm]

theorem make_class (c : Cls) (v w : UVal α) (h : c.make cast v = .ok w) : ∃ a, w = .wrapped c a := by
  cases v <;> simp only [Cls.make] at h <;> split at h
  all_goals first
    | (simp only [Except.ok.injEq] at h; exact ⟨_, h.symm⟩)
    | cases h

theorem makeAll_class (c : Cls) (vs ws : List (UVal α)) (h : c.makeAll cast vs = .ok ws) :
    ws.length = vs.length ∧ ∀ w ∈ ws, ∃ a, w = .wrapped c a := by
  induction vs generalizing ws with
  | nil => simp only [Cls.makeAll, Except.ok.injEq] at h; subst h; simp
  | cons v vs ih =>
    rw [Cls.makeAll] at h
    cases h1 : c.make cast v with
    | error e => rw [h1] at h; cases h
    | ok w =>
      rw [h1] at h
      simp only at h
      cases h2 : c.makeAll cast vs with
      | error e => rw [h2] at h; cases h
      | ok ws' =>
        rw [h2] at h
        simp only [Except.ok.injEq] at h
        subst h
        obtain ⟨i1, i2⟩ := ih ws' h2
        refine ⟨by simp [i1], fun x hx => ?_⟩
        rcases List.mem_cons.1 hx with rfl | hx
        · exact make_class cast c v _ h1
        · exact i2 x hx

/-- C88: a wrapper in the result is of the operands' class, or a `MaskArray` for a boolean result. -/
theorem C88_classes (fuel : Nat) (c : Cls) (inputs outs : List (Opd α)) (hs : Supported (inputs ++ outs))
    (hc : OnlyClass c (inputs ++ outs)) (r res : URes α) (hb : BareRes r)
    (hr : compute (inputs.map bare) (outs.map bare) = .ok r)
    (h : npCall cast compute method axis (fuel + 2) inputs outs = .ok res) :
    ∀ d ∈ resultClasses res, d = c ∨ (d = .mask ∧ ∃ a, r = .one (.array true a)) := by
  rw [npCall_one cast compute method axis fuel c inputs outs hs hc, hr] at h
  simp only at h
  intro d hd
  cases r with
  | none =>
    simp only [Cls.finish] at h
    split at h
    · cases h; simp [resultClasses] at hd
    · cases h
  | tuple vs =>
    simp only [Cls.finish] at h
    split at h
    · cases h
    · next ws hw =>
      cases h
      obtain ⟨-, h2⟩ := makeAll_class cast c vs ws hw
      obtain ⟨w, hw, hwd⟩ := List.mem_filterMap.1 hd
      obtain ⟨a, rfl⟩ := h2 w hw
      simp only [Option.some.injEq] at hwd
      exact Or.inl hwd.symm
  | one v =>
    simp only [Cls.finish] at h
    split at h
    · cases h; simp [resultClasses] at hd
    · cases v with
      | wrapped e a => cases hb
      | scalar x => cases h; simp [resultClasses] at hd
      | array bl a =>
        cases bl with
        | true =>
          simp only at h
          split at h
          · cases h
          · next w hw =>
            cases h
            obtain ⟨b, rfl⟩ := make_class cast .mask _ w hw
            simp only [resultClasses, List.mem_singleton] at hd
            exact Or.inr ⟨hd, a, rfl⟩
        | false =>
          simp only at h
          split at h
          · cases h; simp [resultClasses] at hd
          · split at h
            · cases h
            · next w hw =>
              cases h
              obtain ⟨b, rfl⟩ := make_class cast c _ w hw
              simp only [resultClasses, List.mem_singleton] at hd
              exact Or.inl hd

/-- C88, elementwise functions of `n` records: a result of the shape of the operands is a wrapper of the same
class with `n` records, holding the computed values converted to the dtype of the class. -/
theorem C88_elementwise (fuel : Nat) (c : Cls) (inputs outs : List (Opd α)) (hs : Supported (inputs ++ outs))
    (hc : OnlyClass c (inputs ++ outs)) (hm : method ≠ "at") (hx : axis ≠ some 1) (n : Nat) (flat : List α)
    (hl : flat.length = n * c.kind.cols)
    (hr : compute (inputs.map bare) (outs.map bare) =
      .ok (.one (.array false ⟨if c.kind = .scalar then [n] else [n, c.kind.cols], flat⟩))) :
    ∃ b : Nd α, npCall cast compute method axis (fuel + 2) inputs outs = .ok (.one (.wrapped c b)) ∧
      b.len = n ∧ b.flat = flat.map (cast c) := by
  obtain ⟨-, -, -, -, -, -, h, -⟩ := C88_result cast compute method axis fuel c inputs outs hs hc
  have h := h _ hr hm (by split <;> simp) hx
  have hcon : ∃ b : Nd α, construct c.kind ⟨if c.kind = .scalar then [n] else [n, c.kind.cols],
      flat.map (cast c)⟩ = .ok b ∧ b.len = n ∧ b.flat = flat.map (cast c) := by
    cases hk : c.kind with
    | scalar =>
      rw [hk] at hl
      simp only [if_true]
      refine ⟨⟨[(flat.map (cast c)).length], flat.map (cast c)⟩, by simp [construct, convertNd, isFlat, Kind.cols],
        ?_, rfl⟩
      simp only [Nd.len, List.length_map, List.headD_cons]
      simpa [Kind.cols] using hl
    | momentum =>
      rw [hk] at hl
      simp only [Kind.cols] at hl
      refine ⟨⟨[n, 4], flat.map (cast c)⟩, ?_, rfl, rfl⟩
      have : flat.length / 4 = n := by omega
      simp [construct, convertNd, isFlat, Kind.cols, this]
    | color =>
      refine ⟨⟨[n, 2], flat.map (cast c)⟩, ?_, rfl, rfl⟩
      simp [construct, convertNd, isFlat, Kind.cols]
    | edges =>
      refine ⟨⟨[n, 2], flat.map (cast c)⟩, ?_, rfl, rfl⟩
      simp [construct, convertNd, isFlat, Kind.cols]
  obtain ⟨b, h1, h2, h3⟩ := hcon
  refine ⟨b, ?_, h2, h3⟩
  rw [h]
  simp only [Cls.make, h1]

/-- C88, comparisons and other boolean functions of single-column arrays: a `MaskArray` with the `n` answers. -/
theorem C88_boolean (fuel : Nat) (c : Cls) (inputs outs : List (Opd α)) (hs : Supported (inputs ++ outs))
    (hc : OnlyClass c (inputs ++ outs)) (hm : method ≠ "at") (n : Nat) (flat : List α) (hl : flat.length = n)
    (hr : compute (inputs.map bare) (outs.map bare) = .ok (.one (.array true ⟨[n], flat⟩))) :
    npCall cast compute method axis (fuel + 2) inputs outs =
      .ok (.one (.wrapped .mask ⟨[n], flat.map (cast .mask)⟩)) := by
  obtain ⟨-, -, -, -, h, -⟩ := C88_result cast compute method axis fuel c inputs outs hs hc
  rw [h _ hr hm]
  simp [Cls.make, Cls.kind, construct, convertNd, isFlat, Kind.cols, hl]

/-- C88 fails for boolean functions of momenta, colours and edges, such as `np.isfinite(pmu)`: the array of
answers has several columns and `MaskArray` refuses it. -/
theorem C88_columns_false (fuel : Nat) (c : Cls) (inputs outs : List (Opd α)) (hs : Supported (inputs ++ outs))
    (hc : OnlyClass c (inputs ++ outs)) (hm : method ≠ "at") (n k : Nat) (hn : n ≠ 0) (hk : k ≠ 1) (flat : List α)
    (hr : compute (inputs.map bare) (outs.map bare) = .ok (.one (.array true ⟨[n, k], flat⟩))) :
    npCall cast compute method axis (fuel + 2) inputs outs = .error .valueError := by
  obtain ⟨-, -, -, -, h, -⟩ := C88_result cast compute method axis fuel c inputs outs hs hc
  rw [h _ hr hm]
  simp [Cls.make, Cls.kind, construct, convertNd, isFlat, Kind.cols, hn, hk]

/-- C88, several results that are single values: each becomes an array of one element of a class with one column; the other
classes refuse them. -/
theorem C88_single_values (fuel : Nat) (c : Cls) (inputs outs : List (Opd α)) (hs : Supported (inputs ++ outs))
    (hc : OnlyClass c (inputs ++ outs)) (x : α) (xs : List α)
    (hr : compute (inputs.map bare) (outs.map bare) = .ok (.tuple ((x :: xs).map UVal.scalar))) :
    npCall cast compute method axis (fuel + 2) inputs outs =
      if c.kind.cols = 1 then .ok (.tuple ((x :: xs).map fun y => .wrapped c ⟨[1], [cast c y]⟩)) else .error .indexError := by
  obtain ⟨-, -, -, -, -, -, -, h, -⟩ := C88_result cast compute method axis fuel c inputs outs hs hc
  rw [h _ hr]
  have key : ∀ ys : List α, c.kind.cols = 1 →
      c.makeAll cast (ys.map UVal.scalar) = .ok (ys.map fun y => .wrapped c ⟨[1], [cast c y]⟩) := by
    intro ys hk
    induction ys with
    | nil => rfl
    | cons y ys ih =>
      rw [List.map_cons, Cls.makeAll, ih]
      cases c <;> first | rfl | simp [Cls.kind, Kind.cols] at hk
  by_cases hk : c.kind.cols = 1
  · rw [key _ hk, if_pos hk]
  · rw [if_neg hk, List.map_cons, Cls.makeAll]
    cases c <;> first | rfl | (exact absurd rfl hk)

/-- A reduction over all momenta gives the wrapper with the one total momentum. -/
theorem C88_total_momentum (fuel : Nat) (inputs outs : List (Opd α)) (hs : Supported (inputs ++ outs))
    (hc : OnlyClass .momentum (inputs ++ outs)) (hm : method ≠ "at") (hx : axis ≠ some 1) (p : List α)
    (hl : p.length = 4)
    (hr : compute (inputs.map bare) (outs.map bare) = .ok (.one (.array false ⟨[4], p⟩))) :
    npCall cast compute method axis (fuel + 2) inputs outs =
      .ok (.one (.wrapped .momentum ⟨[1, 4], p.map (cast .momentum)⟩)) := by
  obtain ⟨-, -, -, -, -, -, h, -⟩ := C88_result cast compute method axis fuel _ inputs outs hs hc
  rw [h _ hr hm (by simp) hx]
  simp [Cls.make, Cls.kind, construct, convertNd, isFlat, Kind.cols, hl]

/-- C88 fails for a reduction along the last axis written `axis=-1`: unlike `axis=1` it is refused, or, for
exactly four particles, taken for a momentum. -/
theorem C88_axis_false (fuel : Nat) (inputs outs : List (Opd α)) (hs : Supported (inputs ++ outs))
    (hc : OnlyClass .momentum (inputs ++ outs)) (hm : method ≠ "at") (n : Nat) (flat : List α)
    (hl : flat.length = n)
    (hr : compute (inputs.map bare) (outs.map bare) = .ok (.one (.array false ⟨[n], flat⟩))) :
    npCall cast compute method (some 1) (fuel + 2) inputs outs = .ok (.one (.array false ⟨[n], flat⟩)) ∧
    (n ≠ 0 → n ≠ 4 → npCall cast compute method (some (-1)) (fuel + 2) inputs outs = .error .valueError) ∧
    (n = 4 → npCall cast compute method (some (-1)) (fuel + 2) inputs outs =
      .ok (.one (.wrapped .momentum ⟨[1, 4], flat.map (cast .momentum)⟩))) := by
  refine ⟨?_, ?_, ?_⟩
  · obtain ⟨-, -, -, -, -, h, -⟩ := C88_result cast compute method (some 1) fuel _ inputs outs hs hc
    exact h _ hr hm (Or.inr rfl)
  · intro h0 h4
    obtain ⟨-, -, -, -, -, -, h, -⟩ := C88_result cast compute method (some (-1)) fuel _ inputs outs hs hc
    rw [h _ hr hm (by simp) (by decide)]
    simp [Cls.make, Cls.kind, construct, convertNd, isFlat, Kind.cols, h0, h4]
  · intro h4
    subst h4
    exact C88_total_momentum cast compute method _ fuel inputs outs hs hc hm (by decide) flat hl hr

/-- C88 fails when arrays of two different classes meet, as in `pmu * mask`: each is accepted as a sequence, and
the call ends in an error whatever the function computes (an array): that of putting the result in the class of the
second operand, or `AttributeError` if it fits there. -/
theorem C88_mixed_false (fuel : Nat) (c d : Cls) (hcd : d ≠ c) (a b : Nd α) (hm : method ≠ "at")
    (hx : axis ≠ some 1) (bl : Bool) (r : Nd α) (hsh : r.shape ≠ [])
    (hr : compute [bare (.wrapped c a), bare (.wrapped d b)] [] = .ok (.one (.array bl r))) :
    let inner := if bl then Cls.mask.make cast (.array bl r) else d.make cast (.array bl r)
    let call := npCall cast compute method axis (fuel + 3) [.wrapped c a, .wrapped d b] []
    (∀ e, inner = .error e → call = .error e) ∧ (∀ w, inner = .ok w → call = .error .attributeError) := by
  intro inner call
  have hinner := npCall_one cast compute method axis fuel d [.array (decide (c = .mask)) a, .wrapped d b] []
    (by simp [Supported]) ⟨⟨b, by simp⟩, by simp⟩
  have hr' : compute ([Opd.array (decide (c = Cls.mask)) a, Opd.wrapped d b].map bare) (([] : List (Opd α)).map bare)
      = .ok (.one (.array bl r)) := hr
  rw [hr'] at hinner
  simp only at hinner
  have hno : ¬ (r.shape = [] ∨ axis = some 1) := by
    rintro (h3 | h3)
    · exact hsh h3
    · exact hx h3
  have hstep : ∀ res, d.finish cast method axis (.one (.array bl r)) = res → (∀ e, res = .error e → call = .error e) ∧
      ∀ c' w, res = .ok (.one (.wrapped c' w)) → call = .error .attributeError := by
    intro res hres
    have hc : call = npCall cast compute method axis (fuel + 3) [.wrapped c a, .wrapped d b] [] := rfl
    rw [npCall] at hc
    simp only [List.append_nil, List.filterMap_cons, Opd.override, List.filterMap_nil, tryOverrides, arrayUfunc,
      List.all_cons, Opd.handled, List.all_nil, Bool.and_self, if_true, List.map_cons, Opd.unwrap, if_neg hcd,
      List.map_nil, hinner, hres] at hc
    refine ⟨fun e he => ?_, fun c' w he => ?_⟩
    · subst he; exact hc
    · subst he
      simp only [Cls.finish, if_neg hm] at hc
      exact hc
  have hfin : (∀ e, inner = .error e → d.finish cast method axis (.one (.array bl r)) = .error e) ∧
      ∀ w, inner = .ok w → ∃ c' w', d.finish cast method axis (.one (.array bl r)) = .ok (.one (.wrapped c' w')) := by
    cases bl with
    | true =>
      simp only [Cls.finish, if_neg hm, inner, if_true]
      refine ⟨fun e h => by rw [h], fun w h => ?_⟩
      obtain ⟨w', rfl⟩ := make_class cast .mask _ w h
      rw [h]
      exact ⟨_, _, rfl⟩
    | false =>
      simp only [Cls.finish, if_neg hm, if_neg hno, inner, Bool.false_eq_true, if_false]
      refine ⟨fun e h => by rw [h], fun w h => ?_⟩
      obtain ⟨w', rfl⟩ := make_class cast d _ w h
      rw [h]
      exact ⟨_, _, rfl⟩
  refine ⟨fun e h => (hstep _ (hfin.1 e h)).1 e rfl, fun w h => ?_⟩
  obtain ⟨c', w', h'⟩ := hfin.2 w h
  exact (hstep _ h').2 c' w' rfl

/-! ## Concrete cases -/

/-- Adding one to each element (a stand-in for a universal function). -/
def exCompute (inputs _ : List (Opd Int)) : Py (URes Int) :=
  match inputs with
  | [.array _ a] => .ok (.one (.array false ⟨a.shape, a.flat.map (· + 1)⟩))
  | _ => .error .typeError

example : Supported [Opd.wrapped .pdg (⟨[2], [11, -11]⟩ : Nd Int)] ∧
    OnlyClass .pdg [Opd.wrapped .pdg (⟨[2], [11, -11]⟩ : Nd Int)] := by
  refine ⟨by simp [Supported], ⟨_, List.mem_singleton.2 rfl⟩, ?_⟩
  intro d a h
  simp only [List.mem_singleton, Opd.wrapped.injEq] at h
  exact h.1

example : npCall (fun _ x => x) exCompute "__call__" none 8 [.wrapped .pdg ⟨[2], [11, -11]⟩] [] =
    .ok (.one (.wrapped .pdg ⟨[2], [12, -10]⟩)) := rfl

example : npCall (fun _ x => x) exCompute "__call__" none 8 [.wrapped .momentum ⟨[1, 4], [1, 2, 3, 4]⟩] [] =
    .ok (.one (.wrapped .momentum ⟨[1, 4], [2, 3, 4, 5]⟩)) := rfl

end Gcl
