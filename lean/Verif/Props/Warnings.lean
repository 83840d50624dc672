import Verif.Spec.Warnings
import Verif.Props.Kinematics
import Verif.Props.Rotation
/-!
# C158: the warning filters when several threads are at work
-/
namespace Gcl
set_option autoImplicit false
open Spec Real

/-- Where a thread is in a call: what is left, the result it has, whether it has changed the filters. -/
inductive CallAt (G : WCall → WRes → Prop) : WCall → List WIns → Option WRes → Bool → Prop where
  | m0 (ps : List P4) (r : Option WRes) : CallAt G (.combinedMass ps) [.enter, .filter .error, .mass ps, .leave, .ret] r false
  | m1 (ps : List P4) (r : Option WRes) : CallAt G (.combinedMass ps) [.filter .error, .mass ps, .leave, .ret] r true
  | m2 (ps : List P4) (r : Option WRes) : CallAt G (.combinedMass ps) [.mass ps, .leave, .ret] r true
  | m3 (ps : List P4) (r : WRes) (h : G (.combinedMass ps) r) : CallAt G (.combinedMass ps) [.leave, .ret] (some r) true
  | m4 (ps : List P4) (r : WRes) (h : G (.combinedMass ps) r) : CallAt G (.combinedMass ps) [.ret] (some r) false
  | e0 (ps : List P4) (r : Option WRes) : CallAt G (.eta ps) [.enter, .filter .ignore, .eta ps, .leave, .ret] r false
  | e1 (ps : List P4) (r : Option WRes) : CallAt G (.eta ps) [.filter .ignore, .eta ps, .leave, .ret] r true
  | e2 (ps : List P4) (r : Option WRes) : CallAt G (.eta ps) [.eta ps, .leave, .ret] r true
  | e3 (ps : List P4) (r : WRes) (h : G (.eta ps) r) : CallAt G (.eta ps) [.leave, .ret] (some r) true
  | e4 (ps : List P4) (r : WRes) (h : G (.eta ps) r) : CallAt G (.eta ps) [.ret] (some r) false
  | p0 (ps : List P4) (r : Option WRes) : CallAt G (.phi ps) [.phi ps, .ret] r false
  | p1 (ps : List P4) (r : WRes) (h : G (.phi ps) r) : CallAt G (.phi ps) [.ret] (some r) false

/-- The invariant of one thread. -/
def WThrOk (G : WCall → WRes → Prop) (prog : List WCall) (t : WThr) : Prop :=
  ∃ done, List.Forall₂ G done t.out ∧
    ((t.code = [] ∧ t.saved = none ∧ prog = done ++ t.todo) ∨
      ∃ c, prog = done ++ c :: t.todo ∧ CallAt G c t.code t.reg t.saved.isSome)

theorem wthr_update {G : WCall → WRes → Prop} {progs : Nat → List WCall} {f : Nat → WThr}
    (h : ∀ j, WThrOk G (progs j) (f j)) (i : Nat) (t : WThr) (ht : WThrOk G (progs i) t) :
    ∀ j, WThrOk G (progs j) (Function.update f i t j) := by
  intro j
  by_cases hj : j = i
  · subst hj; rw [Function.update_self]; exact ht
  · rw [Function.update_of_ne hj]; exact h j

/-- If the results computed in this situation are all right, the step keeps the invariant of the threads. -/
theorem warn_step_ok {tol : ℝ} {G : WCall → WRes → Prop} {progs : Nat → List WCall} {w : WWorld}
    (ht : ∀ j, WThrOk G (progs j) (w.thr j)) (i : Nat)
    (hm : ∀ ps c, (w.thr i).code = .mass ps :: c → G (.combinedMass ps) (massUnder (w.lists w.now) ps))
    (he : ∀ ps c, (w.thr i).code = .eta ps :: c → G (.eta ps) (etaUnder (w.lists w.now) ps))
    (hp : ∀ ps c, (w.thr i).code = .phi ps :: c → G (.phi ps) (phiUnder tol (w.lists w.now) ps)) :
    ∀ j, WThrOk G (progs j) ((warnStep tol w i).thr j) := by
  obtain ⟨done, h1, h2⟩ := ht i
  rcases h2 with ⟨hc, hs, h2⟩ | ⟨c, h2, hat⟩
  · cases htd : (w.thr i).todo with
    | nil =>
      have : warnStep tol w i = w := by simp [warnStep, hc, htd]
      rw [this]; exact ht
    | cons c rest =>
      have : (warnStep tol w i).thr = Function.update w.thr i { w.thr i with code := c.code, reg := none, todo := rest } := by
        simp [warnStep, hc, htd]
      rw [this]
      refine wthr_update ht i _ ⟨done, h1, Or.inr ⟨c, by rw [h2, htd], ?_⟩⟩
      simp only [hs, Option.isSome_none]
      cases c
      · exact .m0 _ _
      · exact .e0 _ _
      · exact .p0 _ _
  · rcases hth : w.thr i with ⟨code, saved, reg, todo, out⟩
    rw [hth] at h1 h2 hat hm he hp
    simp only at h1 h2 hat hm he hp
    generalize hsv : saved.isSome = b at hat
    cases hat with
    | m0 ps r =>
      have : (warnStep tol w i).thr = Function.update w.thr i ⟨[.filter .error, .mass ps, .leave, .ret], some w.now, reg, todo, out⟩ := by
        simp [warnStep, hth]
      rw [this]
      exact wthr_update ht i _ ⟨done, h1, Or.inr ⟨_, h2, .m1 ps reg⟩⟩
    | m1 ps r =>
      have : (warnStep tol w i).thr = Function.update w.thr i ⟨[.mass ps, .leave, .ret], saved, reg, todo, out⟩ := by
        simp [warnStep, hth]
      rw [this]
      exact wthr_update ht i _ ⟨done, h1, Or.inr ⟨_, h2, by rw [hsv]; exact .m2 ps reg⟩⟩
    | m2 ps r =>
      have : (warnStep tol w i).thr = Function.update w.thr i ⟨[.leave, .ret], saved, some (massUnder (w.lists w.now) ps), todo, out⟩ := by
        simp [warnStep, hth]
      rw [this]
      exact wthr_update ht i _ ⟨done, h1, Or.inr ⟨_, h2, by rw [hsv]; exact .m3 ps _ (hm ps _ rfl)⟩⟩
    | m3 ps r h =>
      obtain ⟨k, rfl⟩ := Option.isSome_iff_exists.1 hsv
      have : (warnStep tol w i).thr = Function.update w.thr i ⟨[.ret], none, some r, todo, out⟩ := by
        simp [warnStep, hth]
      rw [this]
      exact wthr_update ht i _ ⟨done, h1, Or.inr ⟨_, h2, .m4 ps r h⟩⟩
    | m4 ps r h =>
      have : (warnStep tol w i).thr = Function.update w.thr i ⟨[], saved, some r, todo, out ++ [r]⟩ := by
        simp [warnStep, hth]
      rw [this]
      refine wthr_update ht i _ ⟨done ++ [_], List.rel_append h1 (.cons h .nil), Or.inl ⟨rfl, ?_, by simp [h2]⟩⟩
      simpa using hsv
    | e0 ps r =>
      have : (warnStep tol w i).thr = Function.update w.thr i ⟨[.filter .ignore, .eta ps, .leave, .ret], some w.now, reg, todo, out⟩ := by
        simp [warnStep, hth]
      rw [this]
      exact wthr_update ht i _ ⟨done, h1, Or.inr ⟨_, h2, .e1 ps reg⟩⟩
    | e1 ps r =>
      have : (warnStep tol w i).thr = Function.update w.thr i ⟨[.eta ps, .leave, .ret], saved, reg, todo, out⟩ := by
        simp [warnStep, hth]
      rw [this]
      exact wthr_update ht i _ ⟨done, h1, Or.inr ⟨_, h2, by rw [hsv]; exact .e2 ps reg⟩⟩
    | e2 ps r =>
      have : (warnStep tol w i).thr = Function.update w.thr i ⟨[.leave, .ret], saved, some (etaUnder (w.lists w.now) ps), todo, out⟩ := by
        simp [warnStep, hth]
      rw [this]
      exact wthr_update ht i _ ⟨done, h1, Or.inr ⟨_, h2, by rw [hsv]; exact .e3 ps _ (he ps _ rfl)⟩⟩
    | e3 ps r h =>
      obtain ⟨k, rfl⟩ := Option.isSome_iff_exists.1 hsv
      have : (warnStep tol w i).thr = Function.update w.thr i ⟨[.ret], none, some r, todo, out⟩ := by
        simp [warnStep, hth]
      rw [this]
      exact wthr_update ht i _ ⟨done, h1, Or.inr ⟨_, h2, .e4 ps r h⟩⟩
    | e4 ps r h =>
      have : (warnStep tol w i).thr = Function.update w.thr i ⟨[], saved, some r, todo, out ++ [r]⟩ := by
        simp [warnStep, hth]
      rw [this]
      refine wthr_update ht i _ ⟨done ++ [_], List.rel_append h1 (.cons h .nil), Or.inl ⟨rfl, ?_, by simp [h2]⟩⟩
      simpa using hsv
    | p0 ps r =>
      have : (warnStep tol w i).thr = Function.update w.thr i ⟨[.ret], saved, some (phiUnder tol (w.lists w.now) ps), todo, out⟩ := by
        simp [warnStep, hth]
      rw [this]
      exact wthr_update ht i _ ⟨done, h1, Or.inr ⟨_, h2, by rw [hsv]; exact .p1 ps _ (hp ps _ rfl)⟩⟩
    | p1 ps r h =>
      have : (warnStep tol w i).thr = Function.update w.thr i ⟨[], saved, some r, todo, out ++ [r]⟩ := by
        simp [warnStep, hth]
      rw [this]
      refine wthr_update ht i _ ⟨done ++ [_], List.rel_append h1 (.cons h .nil), Or.inl ⟨rfl, ?_, by simp [h2]⟩⟩
      simpa using hsv

theorem massSq_eq (ps : List P4) : massSq ps = mdot (total ps) (total ps) := by unfold massSq mdot; ring

theorem combinedMass_massSq (ps : List P4) : combinedMass ps = if massSq ps < 0 then 0 else sqrt (massSq ps) := rfl

theorem eta_infinite_iff (p : P4) : (∀ y, p.eta ≠ .fin y) ↔ p.pt = 0 := by
  have h0 : 0 ≤ p.pt := norm_nonneg _
  obtain ⟨h1, h2, h3, h4⟩ := C89_eta p
  constructor
  · intro h
    by_contra hne
    obtain ⟨y, hy, -⟩ := h1 (lt_of_le_of_ne h0 (Ne.symm hne))
    exact h y hy
  · intro h y
    rcases lt_trichotomy p.z 0 with hz | hz | hz
    · rw [h3 h hz]; simp
    · rw [h4 h hz]; simp
    · rw [h2 h hz]; simp

theorem massUnder_can (tol : ℝ) (fs : List WFilter) (ps : List P4) : CanGive tol (.combinedMass ps) (massUnder fs ps) := by
  simp only [CanGive, ← massSq_eq, combinedMass_massSq]
  unfold massUnder
  split_ifs with h
  · cases actionFor fs .runtime <;> simp [h]
  · exact Or.inl rfl

theorem etaUnder_can (tol : ℝ) (fs : List WFilter) (ps : List P4) : CanGive tol (.eta ps) (etaUnder fs ps) := by
  simp only [CanGive]
  unfold etaUnder
  simp only [eta_infinite_iff]
  split_ifs with h
  · cases actionFor fs .runtime <;> simp [h]
  · exact Or.inl rfl

theorem phiUnder_can (tol : ℝ) (fs : List WFilter) (ps : List P4) : CanGive tol (.phi ps) (phiUnder tol fs ps) := by
  simp only [CanGive]
  unfold phiUnder
  split_ifs with h
  · right
    refine ⟨h, ?_⟩
    cases actionFor fs .stability
    · exact Or.inr rfl
    · exact Or.inl ⟨_, rfl⟩
    · exact Or.inl ⟨_, rfl⟩
  · exact Or.inl ⟨h, rfl⟩

/-- **C158** Whatever the filters and however many threads interleave: the results are those of the calls in order, each
one that `combined_mass`, `eta` or `phi` can give. -/
theorem C158_possible (tol : ℝ) (base : List WFilter) (progs : Nat → List WCall) (sched : List Nat) (i : Nat) :
    ∃ done rest, progs i = done ++ rest ∧
      List.Forall₂ (CanGive tol) done ((warnRun tol (warnStart base progs) sched).thr i).out ∧
      (CallsDone (warnRun tol (warnStart base progs) sched) i → rest = []) := by
  have main : ∀ (sched : List Nat) (w : WWorld), (∀ j, WThrOk (CanGive tol) (progs j) (w.thr j)) →
      ∀ j, WThrOk (CanGive tol) (progs j) ((warnRun tol w sched).thr j) := by
    intro sched
    induction sched with
    | nil => intro w h; exact h
    | cons k s ih =>
      intro w h
      exact ih _ (warn_step_ok h k (fun ps _ _ => massUnder_can tol _ ps) (fun ps _ _ => etaUnder_can tol _ ps)
        (fun ps _ _ => phiUnder_can tol _ ps))
  obtain ⟨done, h1, h2⟩ := main sched (warnStart base progs) (fun j => ⟨[], .nil, Or.inl ⟨rfl, rfl, rfl⟩⟩) i
  rcases h2 with ⟨-, -, h2⟩ | ⟨c, h2, h3⟩
  · exact ⟨done, _, h2, h1, fun hd => hd.2⟩
  · refine ⟨done, _, h2, h1, fun hd => ?_⟩
    rw [hd.1] at h3
    cases h3

/-- **C158** So a call in which nothing warns gives in every interleaving what it gives alone. -/
theorem C158_quiet (tol : ℝ) (base : List WFilter) (c : WCall) (r : WRes) (hq : Quiet tol c) (h : CanGive tol c r) :
    GivesAlone tol base c r := by
  cases c with
  | combinedMass ps =>
    rcases h with h | ⟨h, -⟩
    · exact h
    · exact absurd h (not_lt.2 hq)
  | eta ps =>
    rcases h with h | ⟨⟨p, hp, h⟩, -⟩
    · exact h
    · exact absurd h (ne_of_gt (hq p hp))
  | phi ps =>
    have hn : ¬ ∃ p ∈ ps, |p.pt| ≤ tol := by
      rintro ⟨p, hp, h⟩
      have := hq p hp
      have := le_abs_self p.pt
      linarith
    rcases h with ⟨-, h⟩ | ⟨h, -⟩
    · simp only [GivesAlone, if_neg hn]; exact h
    · exact absurd h hn

theorem actionFor_add (act : WAct) (fs : List WFilter) (c : WCat) : actionFor (addFilter act fs) c = act := by
  cases c <;> simp [actionFor, addFilter, WFilter.covers]

/-- The filters while calls are not interrupted. -/
def SerialFilters (base : List WFilter) (w : WWorld) : Prop :=
  w.lists 0 = base ∧ 0 < w.next ∧
  (((∀ j, (w.thr j).saved = none) ∧ w.now = 0) ∨
    ∃ i, (w.thr i).saved = some 0 ∧ (∀ j, j ≠ i → (w.thr j).saved = none) ∧ 0 < w.now ∧
      (∀ ps c, (w.thr i).code = .mass ps :: c → ∃ fs, w.lists w.now = addFilter .error fs) ∧
      (∀ ps c, (w.thr i).code = .eta ps :: c → ∃ fs, w.lists w.now = addFilter .ignore fs))

theorem serial_step {tol : ℝ} {G : WCall → WRes → Prop} {base : List WFilter} {progs : Nat → List WCall} {w : WWorld}
    (ht : ∀ j, WThrOk G (progs j) (w.thr j)) (hf : SerialFilters base w) (i : Nat)
    (hi : ∀ j, (w.thr j).saved ≠ none → j = i) : SerialFilters base (warnStep tol w i) := by
  obtain ⟨f1, f2, f3⟩ := hf
  have houter : ∀ j, j ≠ i → (w.thr j).saved = none := fun j hj => by
    by_contra h
    exact hj (hi j h)
  obtain ⟨done, h1, h2⟩ := ht i
  -- what a step that stays outside does
  have out_step : ∀ t : WThr, (w.thr i).saved = none → t.saved = none → w.now = 0 →
      SerialFilters base { w with thr := Function.update w.thr i t } := by
    intro t _ hs hn
    refine ⟨f1, f2, Or.inl ⟨fun j => ?_, hn⟩⟩
    by_cases hj : j = i
    · subst hj; simpa using hs
    · simpa [Function.update_of_ne hj] using houter j hj
  have now0 : (w.thr i).saved = none → w.now = 0 := by
    intro hs
    rcases f3 with ⟨-, h⟩ | ⟨k, hk, -⟩
    · exact h
    · have : k = i := hi k (by rw [hk]; simp)
      subst this; rw [hs] at hk; cases hk
  have inside : (w.thr i).saved.isSome = true → (w.thr i).saved = some 0 ∧ 0 < w.now ∧
      (∀ ps c, (w.thr i).code = .mass ps :: c → ∃ fs, w.lists w.now = addFilter .error fs) ∧
      (∀ ps c, (w.thr i).code = .eta ps :: c → ∃ fs, w.lists w.now = addFilter .ignore fs) := by
    intro hs
    rcases f3 with ⟨h, -⟩ | ⟨k, hk, -, h3, h4, h5⟩
    · rw [h i] at hs; cases hs
    · have : k = i := hi k (by rw [hk]; simp)
      subst this
      exact ⟨hk, h3, h4, h5⟩
  rcases h2 with ⟨hc, hs, h2⟩ | ⟨c, h2, hat⟩
  · cases htd : (w.thr i).todo with
    | nil =>
      have : warnStep tol w i = w := by simp [warnStep, hc, htd]
      rw [this]; exact ⟨f1, f2, f3⟩
    | cons c rest =>
      have := out_step { w.thr i with code := c.code, reg := none, todo := rest } hs hs (now0 hs)
      simpa [warnStep, hc, htd] using this
  · rcases hth : w.thr i with ⟨code, saved, reg, todo, out⟩
    rw [hth] at h1 h2 hat now0 inside out_step
    simp only at h1 h2 hat now0 inside out_step
    generalize hsv : saved.isSome = b at hat
    -- a step inside
    have in_step : ∀ (t : WThr) (ls : Nat → List WFilter), saved = some 0 → 0 < w.now → t.saved = some 0 → ls 0 = base →
        (∀ ps c, t.code = .mass ps :: c → ∃ fs, ls w.now = addFilter .error fs) →
        (∀ ps c, t.code = .eta ps :: c → ∃ fs, ls w.now = addFilter .ignore fs) →
        SerialFilters base { w with thr := Function.update w.thr i t, lists := ls } := by
      intro t ls _ hn hs hl hm he
      refine ⟨hl, f2, Or.inr ⟨i, by simpa using hs, fun j hj => by simpa [Function.update_of_ne hj] using houter j hj, hn, ?_, ?_⟩⟩
      · simpa using hm
      · simpa using he
    have enter_step : ∀ (t : WThr), saved = none → t.saved = some w.now → (∀ ps c, t.code ≠ .mass ps :: c) →
        (∀ ps c, t.code ≠ .eta ps :: c) →
        SerialFilters base ⟨Function.update w.thr i t, Function.update w.lists w.next (w.lists w.now), w.next + 1, w.next⟩ := by
      intro t hs ht hm he
      rw [now0 hs] at ht
      refine ⟨?_, by simp, Or.inr ⟨i, by simpa using ht, fun j hj => by simpa [Function.update_of_ne hj] using houter j hj, f2, ?_, ?_⟩⟩
      · show Function.update w.lists w.next _ 0 = base
        rw [Function.update_of_ne (by omega)]; exact f1
      · intro ps c h; simp only [Function.update_self] at h; exact absurd h (hm ps c)
      · intro ps c h; simp only [Function.update_self] at h; exact absurd h (he ps c)
    have leave_step : ∀ (t : WThr), saved = some 0 → t.saved = none →
        SerialFilters base { w with thr := Function.update w.thr i t, now := 0 } := by
      intro t _ hs
      refine ⟨f1, f2, Or.inl ⟨fun j => ?_, rfl⟩⟩
      by_cases hj : j = i
      · subst hj; simpa using hs
      · simpa [Function.update_of_ne hj] using houter j hj
    have filt : ∀ act, saved = some 0 → 0 < w.now →
        Function.update w.lists w.now (addFilter act (w.lists w.now)) 0 = base := by
      intro act _ hn
      rw [Function.update_of_ne (by omega)]; exact f1
    cases hat with
    | m0 ps r =>
      have hs : saved = none := by simpa using hsv
      have := enter_step ⟨[.filter .error, .mass ps, .leave, .ret], some w.now, reg, todo, out⟩ hs rfl (by simp) (by simp)
      simpa [warnStep, hth] using this
    | m1 ps r =>
      obtain ⟨i1, i2, -⟩ := inside hsv
      have := in_step ⟨[.mass ps, .leave, .ret], saved, reg, todo, out⟩
        (Function.update w.lists w.now (addFilter .error (w.lists w.now))) i1 i2 i1 (filt _ i1 i2)
        (fun _ _ _ => ⟨w.lists w.now, by simp⟩) (by simp)
      simpa [warnStep, hth] using this
    | m2 ps r =>
      obtain ⟨i1, i2, -⟩ := inside hsv
      have := in_step ⟨[.leave, .ret], saved, some (massUnder (w.lists w.now) ps), todo, out⟩ w.lists i1 i2 i1 f1 (by simp) (by simp)
      simpa [warnStep, hth] using this
    | m3 ps r h =>
      obtain ⟨i1, i2, -⟩ := inside hsv
      have := leave_step ⟨[.ret], none, some r, todo, out⟩ i1 rfl
      simpa [warnStep, hth, i1] using this
    | m4 ps r h =>
      have hs : saved = none := by simpa using hsv
      have := out_step ⟨[], saved, some r, todo, out ++ [r]⟩ hs hs (now0 hs)
      simpa [warnStep, hth] using this
    | e0 ps r =>
      have hs : saved = none := by simpa using hsv
      have := enter_step ⟨[.filter .ignore, .eta ps, .leave, .ret], some w.now, reg, todo, out⟩ hs rfl (by simp) (by simp)
      simpa [warnStep, hth] using this
    | e1 ps r =>
      obtain ⟨i1, i2, -⟩ := inside hsv
      have := in_step ⟨[.eta ps, .leave, .ret], saved, reg, todo, out⟩
        (Function.update w.lists w.now (addFilter .ignore (w.lists w.now))) i1 i2 i1 (filt _ i1 i2)
        (by simp) (fun _ _ _ => ⟨w.lists w.now, by simp⟩)
      simpa [warnStep, hth] using this
    | e2 ps r =>
      obtain ⟨i1, i2, -⟩ := inside hsv
      have := in_step ⟨[.leave, .ret], saved, some (etaUnder (w.lists w.now) ps), todo, out⟩ w.lists i1 i2 i1 f1 (by simp) (by simp)
      simpa [warnStep, hth] using this
    | e3 ps r h =>
      obtain ⟨i1, i2, -⟩ := inside hsv
      have := leave_step ⟨[.ret], none, some r, todo, out⟩ i1 rfl
      simpa [warnStep, hth, i1] using this
    | e4 ps r h =>
      have hs : saved = none := by simpa using hsv
      have := out_step ⟨[], saved, some r, todo, out ++ [r]⟩ hs hs (now0 hs)
      simpa [warnStep, hth] using this
    | p0 ps r =>
      have hs : saved = none := by simpa using hsv
      have := out_step ⟨[.ret], saved, some (phiUnder tol (w.lists w.now) ps), todo, out⟩ hs hs (now0 hs)
      simpa [warnStep, hth] using this
    | p1 ps r h =>
      have hs : saved = none := by simpa using hsv
      have := out_step ⟨[], saved, some r, todo, out ++ [r]⟩ hs hs (now0 hs)
      simpa [warnStep, hth] using this

/-- **C158** If no call is interrupted while it has the filters changed, every call gives what it gives alone, and between
the calls the filters of the process are in force, unchanged. -/
theorem C158_uninterrupted (tol : ℝ) (base : List WFilter) (progs : Nat → List WCall) (sched : List Nat)
    (hs : Uninterrupted tol (warnStart base progs) sched) (w : WWorld) (hw : w = warnRun tol (warnStart base progs) sched) :
    (∀ i, ∃ done rest, progs i = done ++ rest ∧ List.Forall₂ (GivesAlone tol base) done (w.thr i).out ∧
      (CallsDone w i → rest = [])) ∧
    ((∀ i, (w.thr i).saved = none) → w.lists w.now = base) ∧
    ((∀ i, CallsDone w i) → w.lists w.now = base ∧ w.now = 0) := by
  have main : ∀ (sched : List Nat) (w : WWorld), Uninterrupted tol w sched → SerialFilters base w →
      (∀ j, WThrOk (GivesAlone tol base) (progs j) (w.thr j)) →
      SerialFilters base (warnRun tol w sched) ∧ ∀ j, WThrOk (GivesAlone tol base) (progs j) ((warnRun tol w sched).thr j) := by
    intro sched
    induction sched with
    | nil => intro w _ h1 h2; exact ⟨h1, h2⟩
    | cons k s ih =>
      intro w hu h1 h2
      obtain ⟨hk, hu⟩ := hu
      refine ih _ hu (serial_step h2 h1 k hk) (warn_step_ok h2 k ?_ ?_ ?_)
      · intro ps c hc
        obtain ⟨done, -, h3 | ⟨c', -, hat⟩⟩ := h2 k
        · rw [h3.1] at hc; cases hc
        rw [hc] at hat
        generalize hsv : (w.thr k).saved.isSome = b at hat
        cases hat with
        | m2 ps r =>
          obtain ⟨-, -, ⟨h4, -⟩ | ⟨i, i1, -, -, i2, -⟩⟩ := h1
          · rw [h4 k] at hsv; cases hsv
          · have : i = k := hk i (by rw [i1]; simp)
            subst this
            obtain ⟨fs, hfs⟩ := i2 ps _ hc
            rw [hfs]
            simp only [GivesAlone, massUnder, actionFor_add, combinedMass_massSq]
            split_ifs <;> rfl
      · intro ps c hc
        obtain ⟨done, -, h3 | ⟨c', -, hat⟩⟩ := h2 k
        · rw [h3.1] at hc; cases hc
        rw [hc] at hat
        generalize hsv : (w.thr k).saved.isSome = b at hat
        cases hat with
        | e2 ps r =>
          obtain ⟨-, -, ⟨h4, -⟩ | ⟨i, i1, -, -, -, i2⟩⟩ := h1
          · rw [h4 k] at hsv; cases hsv
          · have : i = k := hk i (by rw [i1]; simp)
            subst this
            obtain ⟨fs, hfs⟩ := i2 ps _ hc
            rw [hfs]
            simp only [GivesAlone, etaUnder, actionFor_add]
            split_ifs <;> rfl
      · intro ps c hc
        obtain ⟨done, -, h3 | ⟨c', -, hat⟩⟩ := h2 k
        · rw [h3.1] at hc; cases hc
        rw [hc] at hat
        generalize hsv : (w.thr k).saved.isSome = b at hat
        cases hat with
        | p0 ps r =>
          have hnow : w.lists w.now = base := by
            obtain ⟨h5, -, ⟨-, h4⟩ | ⟨i, i1, -⟩⟩ := h1
            · rw [h4, h5]
            · have : i = k := hk i (by rw [i1]; simp)
              subst this
              rw [i1] at hsv; cases hsv
          rw [hnow]
          simp only [GivesAlone, phiUnder]
          split_ifs with h
          · cases hact : actionFor base .stability <;> simp
          · rfl
  have h0 : SerialFilters base (warnStart base progs) := ⟨rfl, Nat.one_pos, Or.inl ⟨fun _ => rfl, rfl⟩⟩
  obtain ⟨h1, h2⟩ := main sched _ hs h0 (fun j => ⟨[], .nil, Or.inl ⟨rfl, rfl, rfl⟩⟩)
  rw [← hw] at h1 h2
  have outside : (∀ i, (w.thr i).saved = none) → w.lists w.now = base ∧ w.now = 0 := by
    intro hn
    obtain ⟨h5, -, ⟨-, h4⟩ | ⟨i, i1, -⟩⟩ := h1
    · rw [h4, h5]; exact ⟨rfl, rfl⟩
    · rw [hn i] at i1; cases i1
  refine ⟨fun i => ?_, fun hn => (outside hn).1, fun hd => outside (fun i => ?_)⟩
  · obtain ⟨done, g1, g2⟩ := h2 i
    rcases g2 with ⟨-, -, g2⟩ | ⟨c, g2, g3⟩
    · exact ⟨done, _, g2, g1, fun hd => hd.2⟩
    · refine ⟨done, _, g2, g1, fun hd => ?_⟩
      rw [hd.1] at g3
      cases g3
  · obtain ⟨done, -, ⟨-, g2, -⟩ | ⟨c, -, g3⟩⟩ := h2 i
    · exact g2
    · rw [(hd i).1] at g3; cases g3

/-! ### Interleavings in which the filters of one thread act on another -/

theorem spacelike_massSq : massSq [⟨1, 0, 0, 0⟩] < 0 := by
  rw [massSq_eq]; norm_num [mdot, total]

theorem pt_beam (z e : ℝ) : P4.pt ⟨0, 0, z, e⟩ = 0 := by
  rw [pt_eq]; norm_num

/-- **C158** What does not hold: with two threads and the default filters, `combined_mass` can give nan in place of 0 (the
other reads `eta`); a first read of `eta` can raise `RuntimeWarning` (the other is in `combined_mass`); and after two
overlapping calls have ended, the filter of one stays in force: `phi` then warns no more, or raises. -/
theorem C158_false (tol : ℝ) (ht : 0 ≤ tol) :
    ((warnRun tol (warnStart [] (fun i => if i = 0 then [.combinedMass [⟨1, 0, 0, 0⟩]] else [.eta [⟨1, 0, 0, 1⟩]]))
      [0, 0, 0, 1, 1, 1, 0, 0, 0]).thr 0).out = [.number .nan] ∧
    ((warnRun tol (warnStart [] (fun i => if i = 0 then [.eta [⟨0, 0, 1, 1⟩]] else [.combinedMass [⟨1, 0, 0, 1⟩]]))
      [0, 0, 0, 1, 1, 1, 0, 0, 0]).thr 0).out = [.raised .runtime] ∧
    (let w := warnRun tol (warnStart [] (fun i => if i = 0 then [.eta [⟨1, 0, 0, 1⟩]] else
        [.eta [⟨1, 0, 0, 1⟩], .phi [⟨0, 0, 1, 1⟩]])) [0, 0, 0, 1, 1, 1, 0, 0, 0, 1, 1, 1, 1, 1, 1];
      CallsDone w 0 ∧ CallsDone w 1 ∧ (∀ c, actionFor (w.lists w.now) c = .ignore) ∧
      (w.thr 1).out[1]? = some (.array [P4.phi tol ⟨0, 0, 1, 1⟩] false)) ∧
    (let w := warnRun tol (warnStart [] (fun i => if i = 0 then [.combinedMass [⟨1, 0, 0, 1⟩]] else
        [.combinedMass [⟨1, 0, 0, 1⟩], .phi [⟨0, 0, 1, 1⟩]])) [0, 0, 0, 1, 1, 1, 0, 0, 0, 1, 1, 1, 1, 1, 1];
      CallsDone w 0 ∧ CallsDone w 1 ∧ (∀ c, actionFor (w.lists w.now) c = .error) ∧
      (w.thr 1).out[1]? = some (.raised .stability)) := by
  have hb : ∃ p ∈ [(⟨0, 0, 1, 1⟩ : P4)], ∀ y, p.eta ≠ .fin y :=
    ⟨_, List.mem_singleton.2 rfl, (eta_infinite_iff _).2 (pt_beam 1 1)⟩
  have hp : ∃ p ∈ [(⟨0, 0, 1, 1⟩ : P4)], |p.pt| ≤ tol :=
    ⟨_, List.mem_singleton.2 rfl, by rw [pt_beam]; simpa using ht⟩
  have m1 : ∀ fs, massUnder (addFilter .ignore fs) [⟨1, 0, 0, 0⟩] = .number .nan := fun fs => by
    simp [massUnder, spacelike_massSq, actionFor_add]
  have e1 : ∀ fs, etaUnder (addFilter .error fs) [⟨0, 0, 1, 1⟩] = .raised .runtime := fun fs => by
    unfold etaUnder; rw [if_pos hb, actionFor_add]
  have p1 : ∀ fs, phiUnder tol (addFilter .ignore fs) [⟨0, 0, 1, 1⟩] = .array [P4.phi tol ⟨0, 0, 1, 1⟩] false := fun fs => by
    unfold phiUnder; rw [if_pos hp, actionFor_add]; rfl
  have p2 : ∀ fs, phiUnder tol (addFilter .error fs) [⟨0, 0, 1, 1⟩] = .raised .stability := fun fs => by
    unfold phiUnder; rw [if_pos hp, actionFor_add]
  refine ⟨?_, ?_, ?_, ?_⟩
  · simp [warnRun, warnStep, warnStart, WCall.code, Function.update, m1]
  · simp [warnRun, warnStep, warnStart, WCall.code, Function.update, e1]
  · simp [warnRun, warnStep, warnStart, WCall.code, Function.update, p1, CallsDone, actionFor_add]
  · simp [warnRun, warnStep, warnStart, WCall.code, Function.update, p2, CallsDone, actionFor_add]

/-- **C158** It takes no `eta` for this: of two threads which both call `combined_mass`, one can get nan, and of two which both
read `eta`, one can show the warning it means to silence, since the end of one call puts the other one's filter out of force. -/
theorem C158_false_same (tol : ℝ) :
    ((warnRun tol (warnStart [] (fun i => if i < 2 then [.combinedMass [⟨1, 0, 0, 0⟩]] else []))
      [0, 0, 0, 1, 1, 1, 0, 0, 1, 1, 1]).thr 1).out = [.number .nan] ∧
    ((warnRun tol (warnStart [] (fun i => if i < 2 then [.eta [⟨0, 0, 1, 1⟩]] else []))
      [0, 0, 0, 1, 1, 1, 0, 0, 1, 1, 1]).thr 1).out = [.array [P4.eta ⟨0, 0, 1, 1⟩] true] := by
  have hb : ∃ p ∈ [(⟨0, 0, 1, 1⟩ : P4)], ∀ y, p.eta ≠ .fin y :=
    ⟨_, List.mem_singleton.2 rfl, (eta_infinite_iff _).2 (pt_beam 1 1)⟩
  have m1 : massUnder [] [⟨1, 0, 0, 0⟩] = .number .nan := by simp [massUnder, spacelike_massSq, actionFor]
  have e1 : etaUnder [] [⟨0, 0, 1, 1⟩] = .array [P4.eta ⟨0, 0, 1, 1⟩] true := by
    unfold etaUnder; rw [if_pos hb]; simp [actionFor]
  constructor
  · simp [warnRun, warnStep, warnStart, WCall.code, Function.update, m1]
  · simp [warnRun, warnStep, warnStart, WCall.code, Function.update, e1]

/-- **C158** What a filter of the user's does shows in such a race: one for `RuntimeWarning` alone decides there, and one for
other warnings does not. -/
theorem C158_user_filter (tol : ℝ) (act : WAct) (rest : List WFilter) :
    ((warnRun tol (warnStart (⟨.ignore, false, true⟩ :: ⟨act, true, false⟩ :: rest)
      (fun i => if i < 2 then [.eta [⟨0, 0, 1, 1⟩]] else [])) [0, 0, 0, 1, 1, 1, 0, 0, 1, 1, 1]).thr 1).out =
      [match act with
        | .error => .raised .runtime
        | .ignore => .array [P4.eta ⟨0, 0, 1, 1⟩] false
        | .present => .array [P4.eta ⟨0, 0, 1, 1⟩] true] := by
  have hb : ∃ p ∈ [(⟨0, 0, 1, 1⟩ : P4)], ∀ y, p.eta ≠ .fin y :=
    ⟨_, List.mem_singleton.2 rfl, (eta_infinite_iff _).2 (pt_beam 1 1)⟩
  have e1 : etaUnder (⟨.ignore, false, true⟩ :: ⟨act, true, false⟩ :: rest) [⟨0, 0, 1, 1⟩] = match act with
        | .error => .raised .runtime
        | .ignore => .array [P4.eta ⟨0, 0, 1, 1⟩] false
        | .present => .array [P4.eta ⟨0, 0, 1, 1⟩] true := by
    unfold etaUnder; rw [if_pos hb]; cases act <;> simp [actionFor, WFilter.covers]
  simp [warnRun, warnStep, warnStart, WCall.code, Function.update, e1]

/-- Non-vacuity: a schedule in which both threads work and no call is interrupted; the squared mass is negative, one
particle is along the beam, and all three calls warn. -/
example (tol : ℝ) : Uninterrupted tol (warnStart [] (fun i => if i = 0 then [.combinedMass [⟨1, 0, 0, 0⟩]] else
    [.eta [⟨0, 0, 1, 1⟩], .phi [⟨0, 0, 1, 1⟩]])) [1, 1, 1, 1, 1, 0, 0, 0, 0, 0, 1, 1, 0, 1, 1] := by
  simp only [Uninterrupted]
  simp (config := { maxSteps := 1000000 }) [warnStep, warnStart, WCall.code, Function.update]
  repeat' apply And.intro
  all_goals (intro j; by_cases h0 : j = 0 <;> by_cases h1 : j = 1 <;> simp_all)

/-- Non-vacuity of `Quiet`. -/
example : Quiet 1 (.combinedMass [⟨1, 0, 0, 2⟩]) ∧ Quiet (1 / 2) (.phi [⟨1, 0, 0, 2⟩]) ∧ Quiet 1 (.eta [⟨1, 0, 5, 2⟩]) := by
  refine ⟨?_, ?_, ?_⟩
  · simp only [Quiet]; norm_num [mdot, total]
  · have : P4.pt ⟨1, 0, 0, 2⟩ = 1 := by rw [pt_eq]; norm_num
    simp only [Quiet, List.mem_singleton, forall_eq, this]; norm_num
  · have : P4.pt ⟨1, 0, 5, 2⟩ = 1 := by rw [pt_eq]; norm_num
    simp only [Quiet, List.mem_singleton, forall_eq, this]; norm_num

end Gcl
