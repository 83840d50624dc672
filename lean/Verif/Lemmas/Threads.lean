import Verif.Spec.Threads
import Mathlib.Tactic.Common
/-!
# Lemmas: several threads reading cached attributes
-/
namespace Gcl
set_option autoImplicit false
open Spec

section
variable {Obj Attr V : Type} [DecidableEq Obj] [DecidableEq Attr]

/-- What the rest of a read will give. -/
def expectRead (C : CachedClass Obj Attr V) (val : Obj → Attr → Py V) :
    List (Ins Obj Attr) → Option (Py V) → Option (Py V)
  | [], r => r
  | .get o a :: c, _ => match val o a with
    | .ok v => expectRead C val c (some (.ok v))
    | .error e => some (.error e)
  | .acquire o a :: c, _ => match val o a with
    | .ok v => expectRead C val c (some (.ok v))
    | .error e => some (.error e)
  | .relook o a :: c, _ => match val o a with
    | .ok v => expectRead C val c (some (.ok v))
    | .error e => some (.error e)
  | .comp o a :: c, r => match C.compute o a (argOf C a r) with
    | .ok v => expectRead C val c (some (.ok v))
    | .error e => some (.error e)
  | .store _ _ :: c, r => expectRead C val c r
  | .release _ :: c, r => expectRead C val c r
  | .ret :: _, r => r

/-- Whatever the rest of a read stores is right. -/
def soundRead (C : CachedClass Obj Attr V) (val : Obj → Attr → Py V) :
    List (Ins Obj Attr) → Option (Py V) → Prop
  | [], _ => True
  | .get o a :: c, _ => ∀ v, val o a = .ok v → soundRead C val c (some (.ok v))
  | .acquire o a :: c, _ => ∀ v, val o a = .ok v → soundRead C val c (some (.ok v))
  | .relook o a :: c, _ => ∀ v, val o a = .ok v → soundRead C val c (some (.ok v))
  | .comp o a :: c, r => ∀ v, C.compute o a (argOf C a r) = .ok v → soundRead C val c (some (.ok v))
  | .store o a :: c, r => (∀ v, r = some (.ok v) → val o a = .ok v) ∧ soundRead C val c r
  | .release _ :: c, r => soundRead C val c r
  | .ret :: c, r => soundRead C val c r

/-- The rest of a read ends with handing over the value, and does so once. -/
def EndsRead (c : List (Ins Obj Attr)) : Prop := ∃ c0, c = c0 ++ [.ret] ∧ Ins.ret ∉ c0

omit [DecidableEq Obj] [DecidableEq Attr] in
theorem unwind_spec (C : CachedClass Obj Attr V) (val : Obj → Attr → Py V) (c : List (Ins Obj Attr)) (r : Option (Py V)) :
    expectRead C val (unwind c) r = r ∧ soundRead C val (unwind c) r := by
  induction c with
  | nil => exact ⟨rfl, trivial⟩
  | cons x c ih =>
    cases x <;> simp only [unwind, List.filter_cons] at ih ⊢ <;> simp [expectRead, soundRead, ih]

omit [DecidableEq Obj] [DecidableEq Attr] in
theorem unwind_ends {c : List (Ins Obj Attr)} (h : EndsRead c) : EndsRead (unwind c) := by
  obtain ⟨c0, rfl, h0⟩ := h
  refine ⟨unwind c0, by simp [unwind], fun h => h0 ?_⟩
  exact (List.mem_filter.1 h).1

omit [DecidableEq Obj] [DecidableEq Attr] in
theorem body_expect {C : CachedClass Obj Attr V} {val : Obj → Attr → Py V} (hv : ReadAlone C val) (o : Obj) (a : Attr)
    (c : List (Ins Obj Attr)) (r : Option (Py V)) :
    expectRead C val (attrBody C o a ++ c) r =
      match val o a with
      | .ok v => expectRead C val c (some (.ok v))
      | .error e => some (.error e) := by
  have h := hv o a
  unfold attrBody
  cases hd : C.dep a with
  | none =>
    simp only [hd] at h
    simp only [List.cons_append, List.nil_append, expectRead, argOf, hd]
    rw [h]
  | some d =>
    simp only [hd] at h
    simp only [List.cons_append, List.nil_append, expectRead]
    cases hvd : val o d with
    | error e => simp only [hvd] at h; rw [h]
    | ok v =>
      simp only [hvd] at h
      simp only [argOf, hd]
      rw [h]

omit [DecidableEq Obj] [DecidableEq Attr] in
theorem body_sound {C : CachedClass Obj Attr V} {val : Obj → Attr → Py V} (hv : ReadAlone C val) (o : Obj) (a : Attr)
    (c : List (Ins Obj Attr)) (r : Option (Py V)) (hc : ∀ v, val o a = .ok v → soundRead C val c (some (.ok v))) :
    soundRead C val (attrBody C o a ++ c) r := by
  have h := hv o a
  unfold attrBody
  cases hd : C.dep a with
  | none =>
    simp only [hd] at h
    simp only [List.cons_append, List.nil_append, soundRead, argOf, hd]
    intro v h1
    rw [h1] at h
    exact ⟨fun v' h2 => by injection h2 with h2; rw [h, h2], hc v h⟩
  | some d =>
    simp only [hd] at h
    simp only [List.cons_append, List.nil_append, soundRead]
    intro v hvd v' h1
    simp only [hvd] at h
    simp only [argOf, hd] at h1
    rw [h1] at h
    exact ⟨fun v' h2 => by injection h2 with h2; rw [h, h2], hc v' h⟩

omit [DecidableEq Obj] [DecidableEq Attr] in
theorem body_ends (C : CachedClass Obj Attr V) (o : Obj) (a : Attr) {c : List (Ins Obj Attr)} (h : EndsRead c) :
    EndsRead (attrBody C o a ++ c) := by
  obtain ⟨c0, rfl, h0⟩ := h
  refine ⟨attrBody C o a ++ c0, by simp, ?_⟩
  unfold attrBody
  cases C.dep a <;> simp [h0]

omit [DecidableEq Obj] [DecidableEq Attr] in
theorem ends_tail {x : Ins Obj Attr} {c : List (Ins Obj Attr)} (h : EndsRead (x :: c)) (hx : x ≠ .ret) : EndsRead c := by
  obtain ⟨c0, h1, h0⟩ := h
  cases c0 with
  | nil => simp at h1; exact absurd h1.1 hx
  | cons y c0 =>
    simp only [List.cons_append, List.cons.injEq] at h1
    exact ⟨c0, h1.2, fun hm => h0 (List.mem_cons_of_mem _ hm)⟩

omit [DecidableEq Obj] [DecidableEq Attr] in
theorem ends_cons {x : Ins Obj Attr} {c : List (Ins Obj Attr)} (h : EndsRead c) (hx : x ≠ .ret) : EndsRead (x :: c) := by
  obtain ⟨c0, rfl, h0⟩ := h
  exact ⟨x :: c0, rfl, by simp [h0, Ne.symm hx]⟩

omit [DecidableEq Obj] [DecidableEq Attr] in
theorem ends_ret {c : List (Ins Obj Attr)} (h : EndsRead (.ret :: c)) : c = [] := by
  obtain ⟨c0, h1, h0⟩ := h
  cases c0 with
  | nil => simpa using h1
  | cons y c0 =>
    simp only [List.cons_append, List.cons.injEq] at h1
    exact absurd (by rw [h1.1]; simp) h0

/-- The invariant of one thread. -/
def ThrOk (C : CachedClass Obj Attr V) (val : Obj → Attr → Py V) (prog : List (Obj × Attr)) (t : Thr Obj Attr V) : Prop :=
  ∃ done, t.out = done.map (fun r => val r.1 r.2) ∧
    ((t.cur = [] ∧ prog = done ++ t.todo) ∨
      ∃ r, prog = done ++ r :: t.todo ∧ EndsRead t.cur ∧ expectRead C val t.cur t.reg = some (val r.1 r.2) ∧
        soundRead C val t.cur t.reg)

/-- The values stored are right. -/
def CacheOk (val : Obj → Attr → Py V) (w : World Obj Attr V) : Prop := ∀ o a v, w.cache o a = some v → val o a = .ok v

theorem thrOk_update {C : CachedClass Obj Attr V} {val : Obj → Attr → Py V} {progs : Nat → List (Obj × Attr)}
    {f : Nat → Thr Obj Attr V} (h : ∀ j, ThrOk C val (progs j) (f j)) (i : Nat) (t : Thr Obj Attr V)
    (ht : ThrOk C val (progs i) t) : ∀ j, ThrOk C val (progs j) (Function.update f i t j) := by
  intro j
  by_cases hj : j = i
  · subst hj; rw [Function.update_self]; exact ht
  · rw [Function.update_of_ne hj]; exact h j

theorem step_ok {C : CachedClass Obj Attr V} {val : Obj → Attr → Py V} (hv : ReadAlone C val) (locked : Bool)
    {progs : Nat → List (Obj × Attr)} {w : World Obj Attr V} (hc : CacheOk val w)
    (ht : ∀ j, ThrOk C val (progs j) (w.thr j)) (i : Nat) :
    CacheOk val (thrStep locked C w i) ∧ ∀ j, ThrOk C val (progs j) ((thrStep locked C w i).thr j) := by
  obtain ⟨done, h1, h2⟩ := ht i
  cases hcur : (w.thr i).cur with
  | nil =>
    rcases h2 with ⟨-, h2⟩ | ⟨r, -, ⟨c0, h3, -⟩, -⟩
    · cases htd : (w.thr i).todo with
      | nil =>
        have : thrStep locked C w i = w := by simp [thrStep, hcur, htd]
        rw [this]; exact ⟨hc, ht⟩
      | cons p rest =>
        obtain ⟨o, a⟩ := p
        have : thrStep locked C w i = { w with thr := Function.update w.thr i { w.thr i with cur := [.get o a, .ret], reg := none, todo := rest } } := by
          simp [thrStep, hcur, htd]
        rw [this]
        refine ⟨hc, thrOk_update ht i _ ⟨done, h1, Or.inr ⟨(o, a), by rw [h2, htd], ⟨[.get o a], rfl, by simp⟩, ?_, ?_⟩⟩⟩
        · simp only [expectRead]; cases val o a <;> rfl
        · intro v _; trivial
    · rw [hcur] at h3; simp at h3
  | cons x c =>
    rcases h2 with ⟨h3, -⟩ | ⟨r, h2, h3, h4, h5⟩
    · rw [hcur] at h3; cases h3
    rw [hcur] at h3 h4 h5
    cases x with
    | get o a =>
      have hend := ends_tail h3 (by simp)
      simp only [expectRead] at h4
      simp only [soundRead] at h5
      cases hca : w.cache o a with
      | some v =>
        have : thrStep locked C w i = { w with thr := Function.update w.thr i { w.thr i with cur := c, reg := some (.ok v) } } := by
          simp [thrStep, hcur, hca]
        rw [this]
        have hva := hc o a v hca
        simp only [hva] at h4
        exact ⟨hc, thrOk_update ht i _ ⟨done, h1, Or.inr ⟨r, h2, hend, h4, h5 v hva⟩⟩⟩
      | none =>
        cases locked with
        | true =>
          have : thrStep true C w i = { w with thr := Function.update w.thr i { w.thr i with cur := .acquire o a :: c } } := by
            simp [thrStep, hcur, hca]
          rw [this]
          exact ⟨hc, thrOk_update ht i _ ⟨done, h1, Or.inr ⟨r, h2, ends_cons hend (by simp), h4, h5⟩⟩⟩
        | false =>
          have : thrStep false C w i = { w with thr := Function.update w.thr i { w.thr i with cur := attrBody C o a ++ c } } := by
            simp [thrStep, hcur, hca]
          rw [this]
          exact ⟨hc, thrOk_update ht i _ ⟨done, h1, Or.inr ⟨r, h2, body_ends C o a hend,
            by rw [body_expect hv]; exact h4, body_sound hv o a c _ h5⟩⟩⟩
    | acquire o a =>
      have hend := ends_tail h3 (by simp)
      simp only [expectRead] at h4
      simp only [soundRead] at h5
      cases hl : w.lock a with
      | some k =>
        have : thrStep locked C w i = w := by simp [thrStep, hcur, hl]
        rw [this]; exact ⟨hc, ht⟩
      | none =>
        have : thrStep locked C w i = { w with thr := Function.update w.thr i { w.thr i with cur := .relook o a :: .release a :: c }, lock := Function.update w.lock a (some i) } := by
          simp [thrStep, hcur, hl]
        rw [this]
        refine ⟨hc, thrOk_update ht i _ ⟨done, h1, Or.inr ⟨r, h2, ends_cons (ends_cons hend (by simp)) (by simp), ?_, ?_⟩⟩⟩
        · simp only [expectRead]; exact h4
        · simp only [soundRead]; exact h5
    | relook o a =>
      have hend := ends_tail h3 (by simp)
      simp only [expectRead] at h4
      simp only [soundRead] at h5
      cases hca : w.cache o a with
      | some v =>
        have : thrStep locked C w i = { w with thr := Function.update w.thr i { w.thr i with cur := c, reg := some (.ok v) } } := by
          simp [thrStep, hcur, hca]
        rw [this]
        have hva := hc o a v hca
        simp only [hva] at h4
        exact ⟨hc, thrOk_update ht i _ ⟨done, h1, Or.inr ⟨r, h2, hend, h4, h5 v hva⟩⟩⟩
      | none =>
        have : thrStep locked C w i = { w with thr := Function.update w.thr i { w.thr i with cur := attrBody C o a ++ c } } := by
          simp [thrStep, hcur, hca]
        rw [this]
        exact ⟨hc, thrOk_update ht i _ ⟨done, h1, Or.inr ⟨r, h2, body_ends C o a hend,
          by rw [body_expect hv]; exact h4, body_sound hv o a c _ h5⟩⟩⟩
    | comp o a =>
      have hend := ends_tail h3 (by simp)
      simp only [expectRead] at h4
      simp only [soundRead] at h5
      cases hcomp : C.compute o a (argOf C a (w.thr i).reg) with
      | ok v =>
        have : thrStep locked C w i = { w with thr := Function.update w.thr i { w.thr i with cur := c, reg := some (.ok v) }, log := (o, a) :: w.log } := by
          simp [thrStep, hcur, hcomp]
        rw [this]
        simp only [hcomp] at h4
        exact ⟨hc, thrOk_update ht i _ ⟨done, h1, Or.inr ⟨r, h2, hend, h4, h5 v hcomp⟩⟩⟩
      | error e =>
        have : thrStep locked C w i = { w with thr := Function.update w.thr i { w.thr i with cur := unwind c, reg := some (.error e) } } := by
          simp [thrStep, hcur, hcomp]
        rw [this]
        simp only [hcomp] at h4
        have hu := unwind_spec C val c (some (.error e))
        exact ⟨hc, thrOk_update ht i _ ⟨done, h1, Or.inr ⟨r, h2, unwind_ends hend, by rw [hu.1]; exact h4, hu.2⟩⟩⟩
    | store o a =>
      have hend := ends_tail h3 (by simp)
      simp only [expectRead] at h4
      obtain ⟨h5, h6⟩ := h5
      have hnext : ∀ j, ThrOk C val (progs j) (Function.update w.thr i { w.thr i with cur := c } j) :=
        thrOk_update ht i _ ⟨done, h1, Or.inr ⟨r, h2, hend, h4, h6⟩⟩
      match hr : (w.thr i).reg with
      | some (.ok v) =>
        have : thrStep locked C w i = { w with thr := Function.update w.thr i { w.thr i with cur := c }, cache := Function.update w.cache o (Function.update (w.cache o) a (some v)) } := by
          simp [thrStep, hcur, hr]
        rw [this]
        refine ⟨fun o' a' v' h => ?_, hnext⟩
        by_cases ho : o' = o
        · subst ho
          simp only [Function.update_self] at h
          by_cases ha : a' = a
          · subst ha
            rw [Function.update_self] at h
            injection h with h
            rw [← h]; exact h5 v hr
          · rw [Function.update_of_ne ha] at h; exact hc _ _ _ h
        · simp only [Function.update_of_ne ho] at h; exact hc _ _ _ h
      | some (.error e) =>
        have : thrStep locked C w i = { w with thr := Function.update w.thr i { w.thr i with cur := c } } := by
          simp [thrStep, hcur, hr]
        rw [this]; exact ⟨hc, hnext⟩
      | none =>
        have : thrStep locked C w i = { w with thr := Function.update w.thr i { w.thr i with cur := c } } := by
          simp [thrStep, hcur, hr]
        rw [this]; exact ⟨hc, hnext⟩
    | release a =>
      have : thrStep locked C w i = { w with thr := Function.update w.thr i { w.thr i with cur := c }, lock := Function.update w.lock a none } := by
        simp [thrStep, hcur]
      rw [this]
      exact ⟨hc, thrOk_update ht i _ ⟨done, h1, Or.inr ⟨r, h2, ends_tail h3 (by simp), h4, h5⟩⟩⟩
    | ret =>
      have hnil := ends_ret h3
      subst hnil
      simp only [expectRead] at h4
      have : thrStep locked C w i = { w with thr := Function.update w.thr i { w.thr i with cur := [], out := (w.thr i).out ++ [val r.1 r.2] } } := by
        simp [thrStep, hcur, h4]
      rw [this]
      exact ⟨hc, thrOk_update ht i _ ⟨done ++ [r], by simp [h1], Or.inl ⟨rfl, by simp [h2]⟩⟩⟩

theorem run_ok {C : CachedClass Obj Attr V} {val : Obj → Attr → Py V} (hv : ReadAlone C val) (locked : Bool)
    {progs : Nat → List (Obj × Attr)} (sched : List Nat) : ∀ {w : World Obj Attr V}, CacheOk val w →
    (∀ j, ThrOk C val (progs j) (w.thr j)) →
    CacheOk val (thrRun locked C w sched) ∧ ∀ j, ThrOk C val (progs j) ((thrRun locked C w sched).thr j) := by
  induction sched with
  | nil => intro w h1 h2; exact ⟨h1, h2⟩
  | cons i s ih =>
    intro w h1 h2
    obtain ⟨h3, h4⟩ := step_ok hv locked h1 h2 i
    exact ih h3 h4

omit [DecidableEq Obj] [DecidableEq Attr] in
theorem start_ok (C : CachedClass Obj Attr V) (val : Obj → Attr → Py V) (progs : Nat → List (Obj × Attr)) :
    CacheOk val (thrStart progs : World Obj Attr V) ∧
    ∀ j, ThrOk C val (progs j) ((thrStart progs : World Obj Attr V).thr j) :=
  ⟨fun _ _ _ h => by simp [thrStart] at h, fun _ => ⟨[], rfl, Or.inl ⟨rfl, rfl⟩⟩⟩


/-- Upper bound for the number of steps an instruction leads to. -/
def insCost (depth : Attr → Nat) : Ins Obj Attr → Nat
  | .get _ a => 6 * depth a + 6
  | .acquire _ a => 6 * depth a + 5
  | .relook _ a => 6 * depth a + 3
  | _ => 1

/-- The same for a thread. -/
def thrCost (depth : Attr → Nat) (t : Thr Obj Attr V) : Nat := (t.cur.map (insCost depth)).sum + readCost depth t.todo

omit [DecidableEq Obj] [DecidableEq Attr] in
theorem unwind_cost (depth : Attr → Nat) (c : List (Ins Obj Attr)) :
    ((unwind c).map (insCost depth)).sum ≤ (c.map (insCost depth)).sum := by
  induction c with
  | nil => simp [unwind]
  | cons x c ih =>
    cases x <;> simp only [unwind, List.filter_cons] at ih ⊢ <;> simp only [List.map_cons, List.sum_cons, Bool.false_eq_true, if_true, if_false] <;> omega

omit [DecidableEq Obj] [DecidableEq Attr] in
theorem body_cost {C : CachedClass Obj Attr V} {depth : Attr → Nat} (hn : Nested C depth) (o : Obj) (a : Attr) :
    ((attrBody C o a).map (insCost depth)).sum ≤ 6 * depth a + 2 := by
  unfold attrBody
  cases hd : C.dep a with
  | none => simp [insCost]
  | some d =>
    have := hn a d hd
    simp only [List.map_cons, List.map_nil, List.sum_cons, List.sum_nil, insCost]
    omega

/-- Waiting for a lock. -/
def Waits (w : World Obj Attr V) (i : Nat) : Prop :=
  ∃ o a c k, (w.thr i).cur = .acquire o a :: c ∧ w.lock a = some k

/-- Through with its reads. -/
def ThrDone (w : World Obj Attr V) (i : Nat) : Prop := (w.thr i).cur = [] ∧ (w.thr i).todo = []

/-- A step leaves everything as it is if the thread has finished or waits, and else brings it nearer to its end. -/
theorem step_cost {C : CachedClass Obj Attr V} {depth : Attr → Nat} (hn : Nested C depth) (locked : Bool)
    (w : World Obj Attr V) (i : Nat) :
    (∀ j, j ≠ i → (thrStep locked C w i).thr j = w.thr j) ∧
    ((ThrDone w i ∨ Waits w i) ∧ thrStep locked C w i = w ∨
      ¬ ThrDone w i ∧ ¬ Waits w i ∧ thrCost depth ((thrStep locked C w i).thr i) + 1 ≤ thrCost depth (w.thr i)) := by
  have up : ∀ (t : Thr Obj Attr V) (j : Nat), j ≠ i → Function.update w.thr i t j = w.thr j :=
    fun t j hj => Function.update_of_ne hj t w.thr
  cases hcur : (w.thr i).cur with
  | nil =>
    have nw : ¬ Waits w i := by rintro ⟨o, a, c, k, h, -⟩; rw [hcur] at h; cases h
    cases htd : (w.thr i).todo with
    | nil =>
      have : thrStep locked C w i = w := by simp [thrStep, hcur, htd]
      rw [this]; exact ⟨fun _ _ => rfl, Or.inl ⟨Or.inl ⟨hcur, htd⟩, rfl⟩⟩
    | cons p rest =>
      obtain ⟨o, a⟩ := p
      have : thrStep locked C w i = { w with thr := Function.update w.thr i { w.thr i with cur := [.get o a, .ret], reg := none, todo := rest } } := by
        simp [thrStep, hcur, htd]
      rw [this]
      refine ⟨up _, Or.inr ⟨fun h => by rw [ThrDone, htd] at h; simp at h, nw, ?_⟩⟩
      simp only [Function.update_self, thrCost, hcur, htd, readCost, List.map_cons, List.map_nil, List.sum_cons, List.sum_nil, insCost]
      omega
  | cons x c =>
    have nd : ¬ ThrDone w i := fun h => by rw [ThrDone, hcur] at h; simp at h
    have nw : (∀ o a, x ≠ .acquire o a) → ¬ Waits w i := by
      rintro hx ⟨o, a, c', k, h, -⟩; rw [hcur] at h; injection h with h; exact hx _ _ h
    cases x with
    | get o a =>
      cases hca : w.cache o a with
      | some v =>
        have : thrStep locked C w i = { w with thr := Function.update w.thr i { w.thr i with cur := c, reg := some (.ok v) } } := by
          simp [thrStep, hcur, hca]
        rw [this]
        refine ⟨up _, Or.inr ⟨nd, nw (by simp), ?_⟩⟩
        simp only [Function.update_self, thrCost, hcur, List.map_cons, List.sum_cons, insCost]
        omega
      | none =>
        cases locked with
        | true =>
          have : thrStep true C w i = { w with thr := Function.update w.thr i { w.thr i with cur := .acquire o a :: c } } := by
            simp [thrStep, hcur, hca]
          rw [this]
          refine ⟨up _, Or.inr ⟨nd, nw (by simp), ?_⟩⟩
          simp only [Function.update_self, thrCost, hcur, List.map_cons, List.sum_cons, insCost]
          omega
        | false =>
          have : thrStep false C w i = { w with thr := Function.update w.thr i { w.thr i with cur := attrBody C o a ++ c } } := by
            simp [thrStep, hcur, hca]
          rw [this]
          refine ⟨up _, Or.inr ⟨nd, nw (by simp), ?_⟩⟩
          have := body_cost hn o a
          simp only [Function.update_self, thrCost, hcur, List.map_cons, List.sum_cons, insCost, List.map_append, List.sum_append]
          omega
    | acquire o a =>
      cases hl : w.lock a with
      | some k =>
        have : thrStep locked C w i = w := by simp [thrStep, hcur, hl]
        rw [this]; exact ⟨fun _ _ => rfl, Or.inl ⟨Or.inr ⟨o, a, c, k, hcur, hl⟩, rfl⟩⟩
      | none =>
        have : thrStep locked C w i = { w with thr := Function.update w.thr i { w.thr i with cur := .relook o a :: .release a :: c }, lock := Function.update w.lock a (some i) } := by
          simp [thrStep, hcur, hl]
        rw [this]
        refine ⟨up _, Or.inr ⟨nd, ?_, ?_⟩⟩
        · rintro ⟨o', a', c', k, h, h'⟩
          rw [hcur] at h
          injection h with h
          injection h with _ h
          rw [← h, hl] at h'
          cases h'
        · simp only [Function.update_self, thrCost, hcur, List.map_cons, List.sum_cons, insCost]
          omega
    | relook o a =>
      cases hca : w.cache o a with
      | some v =>
        have : thrStep locked C w i = { w with thr := Function.update w.thr i { w.thr i with cur := c, reg := some (.ok v) } } := by
          simp [thrStep, hcur, hca]
        rw [this]
        refine ⟨up _, Or.inr ⟨nd, nw (by simp), ?_⟩⟩
        simp only [Function.update_self, thrCost, hcur, List.map_cons, List.sum_cons, insCost]
        omega
      | none =>
        have : thrStep locked C w i = { w with thr := Function.update w.thr i { w.thr i with cur := attrBody C o a ++ c } } := by
          simp [thrStep, hcur, hca]
        rw [this]
        refine ⟨up _, Or.inr ⟨nd, nw (by simp), ?_⟩⟩
        have := body_cost hn o a
        simp only [Function.update_self, thrCost, hcur, List.map_cons, List.sum_cons, insCost, List.map_append, List.sum_append]
        omega
    | comp o a =>
      cases hcomp : C.compute o a (argOf C a (w.thr i).reg) with
      | ok v =>
        have : thrStep locked C w i = { w with thr := Function.update w.thr i { w.thr i with cur := c, reg := some (.ok v) }, log := (o, a) :: w.log } := by
          simp [thrStep, hcur, hcomp]
        rw [this]
        refine ⟨up _, Or.inr ⟨nd, nw (by simp), ?_⟩⟩
        simp only [Function.update_self, thrCost, hcur, List.map_cons, List.sum_cons, insCost]
        omega
      | error e =>
        have : thrStep locked C w i = { w with thr := Function.update w.thr i { w.thr i with cur := unwind c, reg := some (.error e) } } := by
          simp [thrStep, hcur, hcomp]
        rw [this]
        refine ⟨up _, Or.inr ⟨nd, nw (by simp), ?_⟩⟩
        have := unwind_cost depth c
        simp only [Function.update_self, thrCost, hcur, List.map_cons, List.sum_cons, insCost]
        omega
    | store o a =>
      have hthr : (thrStep locked C w i).thr = Function.update w.thr i { w.thr i with cur := c } := by
        match hr : (w.thr i).reg with
        | some (.ok v) => simp [thrStep, hcur, hr]
        | some (.error e) => simp [thrStep, hcur, hr]
        | none => simp [thrStep, hcur, hr]
      rw [hthr]
      refine ⟨up _, Or.inr ⟨nd, nw (by simp), ?_⟩⟩
      simp only [Function.update_self, thrCost, hcur, List.map_cons, List.sum_cons, insCost]
      omega
    | release a =>
      have hthr : (thrStep locked C w i).thr = Function.update w.thr i { w.thr i with cur := c } := by
        simp [thrStep, hcur]
      rw [hthr]
      refine ⟨up _, Or.inr ⟨nd, nw (by simp), ?_⟩⟩
      simp only [Function.update_self, thrCost, hcur, List.map_cons, List.sum_cons, insCost]
      omega
    | ret =>
      obtain ⟨out', hthr⟩ : ∃ out', (thrStep locked C w i).thr = Function.update w.thr i { w.thr i with cur := c, out := out' } := by
        cases hr : (w.thr i).reg with
        | some r => exact ⟨(w.thr i).out ++ [r], by simp [thrStep, hcur, hr]⟩
        | none => exact ⟨(w.thr i).out, by simp [thrStep, hcur, hr]⟩
      rw [hthr]
      refine ⟨up _, Or.inr ⟨nd, nw (by simp), ?_⟩⟩
      simp only [Function.update_self, thrCost, hcur, List.map_cons, List.sum_cons, insCost]
      omega

/-- The places of instructions in a read: inner attributes, which are less deep, come first. -/
def insKey (depth : Attr → Nat) : Ins Obj Attr → Option Nat
  | .get _ a => some (4 * depth a + 3)
  | .acquire _ a => some (4 * depth a + 3)
  | .relook _ a => some (4 * depth a + 1)
  | .comp _ a => some (4 * depth a)
  | .store _ a => some (4 * depth a + 1)
  | .release a => some (4 * depth a + 2)
  | .ret => none

/-- The instructions of a read are in order. -/
def InOrder (depth : Attr → Nat) (c : List (Ins Obj Attr)) : Prop := (c.filterMap (insKey depth)).Pairwise (· < ·)

/-- The steps of thread `i`, one kind after the other. -/
inductive Mv (locked : Bool) (C : CachedClass Obj Attr V) (w : World Obj Attr V) (i : Nat) : World Obj Attr V → Prop where
  | stay (h : ThrDone w i ∨ Waits w i) : Mv locked C w i w
  | pick (o : Obj) (a : Attr) (rest : List (Obj × Attr)) (h : (w.thr i).cur = []) :
      Mv locked C w i { w with thr := Function.update w.thr i { w.thr i with cur := [.get o a, .ret], reg := none, todo := rest } }
  | hit (x : Ins Obj Attr) (o : Obj) (a : Attr) (c : List (Ins Obj Attr)) (v : V) (h : (w.thr i).cur = x :: c)
      (hx : x = .get o a ∨ x = .relook o a) :
      Mv locked C w i { w with thr := Function.update w.thr i { w.thr i with cur := c, reg := some (.ok v) } }
  | want (o : Obj) (a : Attr) (c : List (Ins Obj Attr)) (hl : locked = true) (h : (w.thr i).cur = .get o a :: c) :
      Mv locked C w i { w with thr := Function.update w.thr i { w.thr i with cur := .acquire o a :: c } }
  | body (x : Ins Obj Attr) (o : Obj) (a : Attr) (c : List (Ins Obj Attr)) (h : (w.thr i).cur = x :: c)
      (hx : x = .get o a ∧ locked = false ∨ x = .relook o a) (hc : w.cache o a = none) :
      Mv locked C w i { w with thr := Function.update w.thr i { w.thr i with cur := attrBody C o a ++ c } }
  | take (o : Obj) (a : Attr) (c : List (Ins Obj Attr)) (h : (w.thr i).cur = .acquire o a :: c) (hl : w.lock a = none) :
      Mv locked C w i { w with thr := Function.update w.thr i { w.thr i with cur := .relook o a :: .release a :: c }, lock := Function.update w.lock a (some i) }
  | comp (o : Obj) (a : Attr) (c : List (Ins Obj Attr)) (v : V) (h : (w.thr i).cur = .comp o a :: c) :
      Mv locked C w i { w with thr := Function.update w.thr i { w.thr i with cur := c, reg := some (.ok v) }, log := (o, a) :: w.log }
  | fail (o : Obj) (a : Attr) (c : List (Ins Obj Attr)) (e : PyErr) (h : (w.thr i).cur = .comp o a :: c) :
      Mv locked C w i { w with thr := Function.update w.thr i { w.thr i with cur := unwind c, reg := some (.error e) } }
  | store (o : Obj) (a : Attr) (c : List (Ins Obj Attr)) (v : V) (h : (w.thr i).cur = .store o a :: c)
      (hr : (w.thr i).reg = some (.ok v)) :
      Mv locked C w i { w with thr := Function.update w.thr i { w.thr i with cur := c }, cache := Function.update w.cache o (Function.update (w.cache o) a (some v)) }
  | skip (o : Obj) (a : Attr) (c : List (Ins Obj Attr)) (h : (w.thr i).cur = .store o a :: c)
      (hr : ∀ v, (w.thr i).reg ≠ some (.ok v)) :
      Mv locked C w i { w with thr := Function.update w.thr i { w.thr i with cur := c } }
  | free (a : Attr) (c : List (Ins Obj Attr)) (h : (w.thr i).cur = .release a :: c) :
      Mv locked C w i { w with thr := Function.update w.thr i { w.thr i with cur := c }, lock := Function.update w.lock a none }
  | ret (c : List (Ins Obj Attr)) (out' : List (Py V)) (h : (w.thr i).cur = .ret :: c) :
      Mv locked C w i { w with thr := Function.update w.thr i { w.thr i with cur := c, out := out' } }

theorem step_mv (locked : Bool) (C : CachedClass Obj Attr V) (w : World Obj Attr V) (i : Nat) :
    Mv locked C w i (thrStep locked C w i) := by
  cases hcur : (w.thr i).cur with
  | nil =>
    cases htd : (w.thr i).todo with
    | nil =>
      have : thrStep locked C w i = w := by simp [thrStep, hcur, htd]
      rw [this]; exact .stay (Or.inl ⟨hcur, htd⟩)
    | cons p rest =>
      obtain ⟨o, a⟩ := p
      have := Mv.pick (locked := locked) (C := C) o a rest hcur
      simpa [thrStep, hcur, htd] using this
  | cons x c =>
    cases x with
    | get o a =>
      cases hca : w.cache o a with
      | some v =>
        have := Mv.hit (locked := locked) (C := C) _ o a c v hcur (Or.inl rfl)
        simpa [thrStep, hcur, hca] using this
      | none =>
        cases locked with
        | true =>
          have := Mv.want (C := C) o a c rfl hcur
          simpa [thrStep, hcur, hca] using this
        | false =>
          have := Mv.body (locked := false) (C := C) _ o a c hcur (Or.inl ⟨rfl, rfl⟩) hca
          simpa [thrStep, hcur, hca] using this
    | acquire o a =>
      cases hl : w.lock a with
      | some k =>
        have : thrStep locked C w i = w := by simp [thrStep, hcur, hl]
        rw [this]; exact .stay (Or.inr ⟨o, a, c, k, hcur, hl⟩)
      | none =>
        have := Mv.take (locked := locked) (C := C) o a c hcur hl
        simpa [thrStep, hcur, hl] using this
    | relook o a =>
      cases hca : w.cache o a with
      | some v =>
        have := Mv.hit (locked := locked) (C := C) _ o a c v hcur (Or.inr rfl)
        simpa [thrStep, hcur, hca] using this
      | none =>
        have := Mv.body (locked := locked) (C := C) _ o a c hcur (Or.inr rfl) hca
        simpa [thrStep, hcur, hca] using this
    | comp o a =>
      cases hcomp : C.compute o a (argOf C a (w.thr i).reg) with
      | ok v =>
        have := Mv.comp (locked := locked) (C := C) o a c v hcur
        simpa [thrStep, hcur, hcomp] using this
      | error e =>
        have := Mv.fail (locked := locked) (C := C) o a c e hcur
        simpa [thrStep, hcur, hcomp] using this
    | store o a =>
      match hr : (w.thr i).reg with
      | some (.ok v) =>
        have := Mv.store (locked := locked) (C := C) o a c v hcur hr
        simpa [thrStep, hcur, hr] using this
      | some (.error e) =>
        have := Mv.skip (locked := locked) (C := C) o a c hcur (by simp [hr])
        simpa [thrStep, hcur, hr] using this
      | none =>
        have := Mv.skip (locked := locked) (C := C) o a c hcur (by simp [hr])
        simpa [thrStep, hcur, hr] using this
    | release a =>
      have := Mv.free (locked := locked) (C := C) a c hcur
      simpa [thrStep, hcur] using this
    | ret =>
      cases hr : (w.thr i).reg with
      | some r =>
        have := Mv.ret (locked := locked) (C := C) c ((w.thr i).out ++ [r]) hcur
        simpa [thrStep, hcur, hr] using this
      | none =>
        have := Mv.ret (locked := locked) (C := C) c (w.thr i).out hcur
        simpa [thrStep, hcur, hr] using this

omit [DecidableEq Obj] [DecidableEq Attr] in
theorem update_forall {P : Nat → Thr Obj Attr V → Prop} {f : Nat → Thr Obj Attr V} (h : ∀ j, P j (f j)) (i : Nat)
    (t : Thr Obj Attr V) (ht : P i t) : ∀ j, P j (Function.update f i t j) := by
  intro j
  by_cases hj : j = i
  · subst hj; rw [Function.update_self]; exact ht
  · rw [Function.update_of_ne hj]; exact h j

/-- Without locks nobody ever waits. -/
theorem no_waits (C : CachedClass Obj Attr V) (sched : List Nat) : ∀ (w : World Obj Attr V),
    (∀ i, ∀ x ∈ (w.thr i).cur, ∀ o a, x ≠ .acquire o a) →
    ∀ i, ∀ x ∈ ((thrRun false C w sched).thr i).cur, ∀ o a, x ≠ .acquire o a := by
  induction sched with
  | nil => intro w h; exact h
  | cons k s ih =>
    intro w h
    refine ih _ ?_
    have hb : ∀ o a, ∀ x ∈ attrBody C o a, ∀ o' a', x ≠ .acquire o' a' := by
      intro o a x hx o' a' e
      subst e
      unfold attrBody at hx
      cases hd : C.dep a <;> simp [hd] at hx
    have hu : ∀ c : List (Ins Obj Attr), ∀ x ∈ unwind c, x ∈ c := fun c x hx => (List.mem_filter.1 hx).1
    have key : ∀ t : Thr Obj Attr V, (∀ x ∈ t.cur, ∀ o a, x ≠ .acquire o a) →
        ∀ j, ∀ x ∈ (Function.update w.thr k t j).cur, ∀ o a, x ≠ .acquire o a := fun t ht =>
      update_forall (P := fun _ t => ∀ x ∈ t.cur, ∀ o a, x ≠ .acquire o a) h k t ht
    have hk := h k
    generalize hw : thrStep false C w k = w'
    have hm := step_mv false C w k
    rw [hw] at hm
    cases hm with
    | stay => exact h
    | pick => exact key _ (by simp)
    | hit x o a c v hc _ => rw [hc] at hk; exact key _ (fun y hy => hk y (List.mem_cons_of_mem _ hy))
    | want _ _ _ hl => cases hl
    | body x o a c hc _ _ =>
      rw [hc] at hk
      refine key _ (fun y hy => ?_)
      rcases List.mem_append.1 hy with hy | hy
      · exact hb o a y hy
      · exact hk y (List.mem_cons_of_mem _ hy)
    | take o a c hc _ => rw [hc] at hk; exact absurd rfl (hk _ (List.mem_cons_self ..) o a)
    | comp o a c v hc => rw [hc] at hk; exact key _ (fun y hy => hk y (List.mem_cons_of_mem _ hy))
    | fail o a c e hc => rw [hc] at hk; exact key _ (fun y hy => hk y (List.mem_cons_of_mem _ (hu c y hy)))
    | store o a c v hc _ => rw [hc] at hk; exact key _ (fun y hy => hk y (List.mem_cons_of_mem _ hy))
    | skip o a c hc _ => rw [hc] at hk; exact key _ (fun y hy => hk y (List.mem_cons_of_mem _ hy))
    | free a c hc => rw [hc] at hk; exact key _ (fun y hy => hk y (List.mem_cons_of_mem _ hy))
    | ret c out' hc => rw [hc] at hk; exact key _ (fun y hy => hk y (List.mem_cons_of_mem _ hy))

/-- Every computation is followed by storing its value. -/
def PairedIns : List (Ins Obj Attr) → Prop
  | [] => True
  | .comp o a :: c => (∃ c', c = .store o a :: c') ∧ PairedIns c
  | _ :: c => PairedIns c

/-- The invariant of the locks. -/
structure LockInv (depth : Attr → Nat) (w : World Obj Attr V) : Prop where
  order : ∀ i, InOrder depth (w.thr i).cur
  held : ∀ a i, w.lock a = some i ↔ .release a ∈ (w.thr i).cur
  under : ∀ i o a, (.comp o a ∈ (w.thr i).cur ∨ .store o a ∈ (w.thr i).cur ∨ .relook o a ∈ (w.thr i).cur) →
    .release a ∈ (w.thr i).cur
  paired : ∀ i, PairedIns (w.thr i).cur
  fresh : ∀ i o a, .comp o a ∈ (w.thr i).cur → w.cache o a = none ∧ (o, a) ∉ w.log
  once : w.log.Nodup
  kept : ∀ o a, (o, a) ∈ w.log → w.cache o a ≠ none ∨ ∃ i c v, (w.thr i).cur = .store o a :: c ∧ (w.thr i).reg = some (.ok v)

omit [DecidableEq Obj] [DecidableEq Attr] in
theorem inOrder_tail {depth : Attr → Nat} {x : Ins Obj Attr} {c : List (Ins Obj Attr)} (h : InOrder depth (x :: c)) :
    InOrder depth c := by
  unfold InOrder at h ⊢
  cases hk : insKey depth x with
  | none => simpa [List.filterMap_cons, hk] using h
  | some k =>
    simp only [List.filterMap_cons, hk, List.pairwise_cons] at h
    exact h.2

omit [DecidableEq Obj] [DecidableEq Attr] in
theorem inOrder_head {depth : Attr → Nat} {x y : Ins Obj Attr} {c : List (Ins Obj Attr)} {k l : Nat}
    (h : InOrder depth (x :: c)) (hx : insKey depth x = some k) (hy : y ∈ c) (hl : insKey depth y = some l) : k < l := by
  unfold InOrder at h
  simp only [List.filterMap_cons, hx, List.pairwise_cons] at h
  exact h.1 l (List.mem_filterMap.2 ⟨y, hy, hl⟩)

omit [DecidableEq Obj] [DecidableEq Attr] in
theorem inOrder_cons {depth : Attr → Nat} {x : Ins Obj Attr} {c : List (Ins Obj Attr)} {k : Nat}
    (h : InOrder depth c) (hx : insKey depth x = some k) (hc : ∀ y ∈ c, ∀ l, insKey depth y = some l → k < l) :
    InOrder depth (x :: c) := by
  unfold InOrder at h ⊢
  simp only [List.filterMap_cons, hx, List.pairwise_cons]
  refine ⟨fun l hl => ?_, h⟩
  obtain ⟨y, hy, hl⟩ := List.mem_filterMap.1 hl
  exact hc y hy l hl

omit [DecidableEq Obj] [DecidableEq Attr] in
theorem inOrder_unwind {depth : Attr → Nat} {c : List (Ins Obj Attr)} (h : InOrder depth c) : InOrder depth (unwind c) :=
  List.Pairwise.sublist (List.Sublist.filterMap _ List.filter_sublist) h

omit [DecidableEq Obj] [DecidableEq Attr] in
theorem inOrder_body {C : CachedClass Obj Attr V} {depth : Attr → Nat} (hn : Nested C depth) (o : Obj) (a : Attr)
    {c : List (Ins Obj Attr)} (h : InOrder depth c) (hc : ∀ y ∈ c, ∀ l, insKey depth y = some l → 4 * depth a + 1 < l) :
    InOrder depth (attrBody C o a ++ c) := by
  have h1 : InOrder depth (.store o a :: c) := inOrder_cons h rfl hc
  have h2 : InOrder depth (.comp o a :: .store o a :: c) := by
    refine inOrder_cons h1 rfl (fun y hy l hl => ?_)
    rcases List.mem_cons.1 hy with rfl | hy
    · simp only [insKey, Option.some.injEq] at hl; omega
    · have := hc y hy l hl; omega
  unfold attrBody
  cases hd : C.dep a with
  | none => exact h2
  | some d =>
    have hda := hn a d hd
    refine inOrder_cons h2 rfl (fun y hy l hl => ?_)
    rcases List.mem_cons.1 hy with rfl | hy
    · simp only [insKey, Option.some.injEq] at hl; omega
    · rcases List.mem_cons.1 hy with rfl | hy
      · simp only [insKey, Option.some.injEq] at hl; omega
      · have := hc y hy l hl; omega

omit [DecidableEq Obj] [DecidableEq Attr] in
theorem mem_unwind {c : List (Ins Obj Attr)} {a : Attr} : (Ins.release a : Ins Obj Attr) ∈ unwind c ↔ .release a ∈ c := by
  simp [unwind, List.mem_filter]

omit [DecidableEq Obj] [DecidableEq Attr] in
theorem paired_tail {x : Ins Obj Attr} {c : List (Ins Obj Attr)} (h : PairedIns (x :: c)) : PairedIns c := by
  cases x <;> first | exact h | exact h.2

omit [DecidableEq Obj] [DecidableEq Attr] in
theorem paired_unwind (c : List (Ins Obj Attr)) : PairedIns (unwind c) := by
  induction c with
  | nil => trivial
  | cons x c ih => cases x <;> simp only [unwind, List.filter_cons] at ih ⊢ <;> simpa [PairedIns] using ih

omit [DecidableEq Obj] [DecidableEq Attr] in
theorem paired_body (C : CachedClass Obj Attr V) (o : Obj) (a : Attr) {c : List (Ins Obj Attr)} (h : PairedIns c) :
    PairedIns (attrBody C o a ++ c) := by
  unfold attrBody
  cases C.dep a with
  | none => exact ⟨⟨c, rfl⟩, h⟩
  | some d => exact ⟨⟨c, rfl⟩, h⟩

omit [DecidableEq Obj] [DecidableEq Attr] in
theorem mem_body {C : CachedClass Obj Attr V} {o : Obj} {a : Attr} {x : Ins Obj Attr} (h : x ∈ attrBody C o a) :
    (∃ d, C.dep a = some d ∧ x = .get o d) ∨ x = .comp o a ∨ x = .store o a := by
  unfold attrBody at h
  cases hd : C.dep a with
  | none => simp [hd] at h; rcases h with h | h <;> simp [h]
  | some d => simp [hd] at h; rcases h with h | h | h <;> simp [h]


/-- A step that changes only what thread `i` has left to do, and no lock it holds. -/
theorem lockInv_local {depth : Attr → Nat} {w : World Obj Attr V} (h : LockInv depth w) (i : Nat) (t : Thr Obj Attr V)
    (hrel : ∀ a, .release a ∈ t.cur ↔ .release a ∈ (w.thr i).cur) (hord : InOrder depth t.cur)
    (hund : ∀ o a, (.comp o a ∈ t.cur ∨ .store o a ∈ t.cur ∨ .relook o a ∈ t.cur) → .release a ∈ t.cur)
    (hpair : PairedIns t.cur) (hfr : ∀ o a, .comp o a ∈ t.cur → w.cache o a = none ∧ (o, a) ∉ w.log)
    (hk : ∀ o a c v, (w.thr i).cur = .store o a :: c → (w.thr i).reg ≠ some (.ok v)) :
    LockInv depth { w with thr := Function.update w.thr i t } := by
  refine ⟨update_forall (P := fun _ t => InOrder depth t.cur) h.order i t hord, fun a => ?_, ?_, ?_, ?_, h.once, ?_⟩
  · refine update_forall (P := fun j t => w.lock a = some j ↔ .release a ∈ t.cur) (h.held a) i t ?_
    rw [hrel]; exact h.held a i
  · intro j o a
    exact update_forall (P := fun _ t => (.comp o a ∈ t.cur ∨ .store o a ∈ t.cur ∨ .relook o a ∈ t.cur) → .release a ∈ t.cur)
      (fun j => h.under j o a) i t (hund o a) j
  · exact update_forall (P := fun _ t => PairedIns t.cur) h.paired i t hpair
  · intro j o a
    exact update_forall (P := fun _ t => .comp o a ∈ t.cur → w.cache o a = none ∧ (o, a) ∉ w.log)
      (fun j => h.fresh j o a) i t (hfr o a) j
  · intro o a hl
    rcases h.kept o a hl with h1 | ⟨j, c, v, h1, h2⟩
    · exact Or.inl h1
    · right
      have hj : j ≠ i := fun e => by subst e; exact hk o a c v h1 h2
      refine ⟨j, c, v, ?_, ?_⟩
      · simpa [Function.update_of_ne hj] using h1
      · simpa [Function.update_of_ne hj] using h2

theorem lockInv_step {C : CachedClass Obj Attr V} {depth : Attr → Nat} (hn : Nested C depth) {w : World Obj Attr V}
    (h : LockInv depth w) (i : Nat) : LockInv depth (thrStep true C w i) := by
  generalize hw : thrStep true C w i = w'
  have hm := step_mv true C w i
  rw [hw] at hm
  clear hw
  have hord := h.order i
  have hheld := fun a => h.held a i
  have hund := h.under i
  have hpair := h.paired i
  have hfr := h.fresh i
  cases hm with
  | stay => exact h
  | pick o a rest hc =>
    refine lockInv_local h i _ (by simp [hc]) ?_ (by simp) (by simp [PairedIns]) (by simp) (by simp [hc])
    simp [InOrder, List.filterMap_cons, insKey]
  | hit x o a c v hc hx =>
    rw [hc] at hord hund hpair hfr
    refine lockInv_local h i _ ?_ (inOrder_tail hord) ?_ (paired_tail hpair) (fun o a hm => hfr o a (List.mem_cons_of_mem _ hm)) ?_
    · intro b; rw [hc]; rcases hx with rfl | rfl <;> simp
    · intro o' a' hm
      have := hund o' a' (by
        rcases hm with hm | hm | hm
        · exact Or.inl (List.mem_cons_of_mem _ hm)
        · exact Or.inr (Or.inl (List.mem_cons_of_mem _ hm))
        · exact Or.inr (Or.inr (List.mem_cons_of_mem _ hm)))
      rcases hx with rfl | rfl <;> simpa using this
    · intro o' a' c' v' e; rw [hc] at e; rcases hx with rfl | rfl <;> simp at e
  | want o a c _ hc =>
    rw [hc] at hord hund hpair hfr
    refine lockInv_local h i _ ?_ ?_ ?_ ?_ ?_ ?_
    · intro b; rw [hc]; simp
    · exact inOrder_cons (inOrder_tail hord) rfl (fun y hy l hl => inOrder_head hord (x := .get o a) rfl hy hl)
    · intro o' a' hm
      have := hund o' a' (by simpa using hm)
      simpa using this
    · have hp := paired_tail hpair
      exact hp
    · intro o' a' hm; exact hfr o' a' (by simpa using hm)
    · intro o' a' c' v' e; rw [hc] at e; simp at e
  | body x o a c hc hx hca =>
    have hx : x = .relook o a := by rcases hx with ⟨-, hx⟩ | hx; cases hx; exact hx
    subst hx
    rw [hc] at hord hund hpair hfr
    have hla : w.lock a = some i := (h.held a i).2 (by rw [hc]; exact hund o a (by simp))
    have hra : .release a ∈ c := by simpa using hund o a (by simp)
    refine lockInv_local h i _ ?_ ?_ ?_ ?_ ?_ ?_
    · intro b
      rw [hc]
      constructor
      · intro hm
        rcases List.mem_append.1 hm with hm | hm
        · rcases mem_body hm with ⟨d, -, e⟩ | e | e <;> cases e
        · exact List.mem_cons_of_mem _ hm
      · intro hm; exact List.mem_append_right _ (by simpa using hm)
    · exact inOrder_body hn o a (inOrder_tail hord) (fun y hy l hl => inOrder_head hord (x := .relook o a) rfl hy hl)
    · intro o' a' hm
      have h' : (Ins.comp o' a' ∈ c ∨ .store o' a' ∈ c ∨ .relook o' a' ∈ c) ∨ a' = a := by
        simp only [List.mem_append] at hm
        rcases hm with (hm | hm) | (hm | hm) | (hm | hm)
        · rcases mem_body hm with ⟨d, -, e⟩ | e | e
          · cases e
          · injection e with e1 e2; exact Or.inr e2
          · cases e
        · exact Or.inl (Or.inl hm)
        · rcases mem_body hm with ⟨d, -, e⟩ | e | e
          · cases e
          · cases e
          · injection e with e1 e2; exact Or.inr e2
        · exact Or.inl (Or.inr (Or.inl hm))
        · rcases mem_body hm with ⟨d, -, e⟩ | e | e <;> cases e
        · exact Or.inl (Or.inr (Or.inr hm))
      rcases h' with h' | rfl
      · have := hund o' a' (by
          rcases h' with hm | hm | hm
          · exact Or.inl (List.mem_cons_of_mem _ hm)
          · exact Or.inr (Or.inl (List.mem_cons_of_mem _ hm))
          · exact Or.inr (Or.inr (List.mem_cons_of_mem _ hm)))
        exact List.mem_append_right _ (by simpa using this)
      · exact List.mem_append_right _ hra
    · exact paired_body C o a (paired_tail hpair)
    · intro o' a' hm
      rcases List.mem_append.1 hm with hm | hm
      · rcases mem_body hm with ⟨d, -, e⟩ | e | e
        · cases e
        · injection e with e1 e2
          subst e1 e2
          refine ⟨hca, fun hlog => ?_⟩
          rcases h.kept o' a' hlog with h1 | ⟨j, c', v, h1, -⟩
          · exact h1 hca
          · have hj : w.lock a' = some j := (h.held a' j).2 (h.under j o' a' (Or.inr (Or.inl (by rw [h1]; simp))))
            rw [hla] at hj
            injection hj with hj
            subst hj
            rw [hc] at h1
            cases h1
        · cases e
      · exact hfr o' a' (List.mem_cons_of_mem _ hm)
    · intro o' a' c' v' e; rw [hc] at e; simp at e
  | take o a c hc hl =>
    rw [hc] at hord hund hpair hfr
    have hother : ∀ j, .release a ∉ (w.thr j).cur := fun j hm => by
      have := (h.held a j).2 hm
      rw [hl] at this; cases this
    refine ⟨?_, ?_, ?_, ?_, ?_, h.once, ?_⟩
    · refine update_forall (P := fun _ t => InOrder depth t.cur) h.order i _ ?_
      have hrest : ∀ y ∈ c, ∀ l, insKey depth y = some l → 4 * depth a + 3 < l :=
        fun y hy l hl => inOrder_head hord (x := .acquire o a) rfl hy hl
      refine inOrder_cons (inOrder_cons (inOrder_tail hord) rfl (fun y hy l hl => ?_)) rfl (fun y hy l hl => ?_)
      · have := hrest y hy l hl; omega
      · rcases List.mem_cons.1 hy with rfl | hy
        · simp only [insKey, Option.some.injEq] at hl; omega
        · have := hrest y hy l hl; omega
    · intro b j
      show Function.update w.lock a (some i) b = some j ↔ .release b ∈ (Function.update w.thr i _ j).cur
      by_cases hb : b = a
      · subst hb
        rw [Function.update_self]
        by_cases hj : j = i
        · subst hj; simp
        · rw [Function.update_of_ne hj]
          exact ⟨fun e => absurd (by injection e with e; exact e.symm) hj, fun hm => absurd hm (hother j)⟩
      · rw [Function.update_of_ne hb]
        by_cases hj : j = i
        · subst hj
          rw [Function.update_self, h.held b j, hc]
          simp [hb]
        · rw [Function.update_of_ne hj]; exact h.held b j
    · intro j o' a'
      refine update_forall (P := fun _ t => (.comp o' a' ∈ t.cur ∨ .store o' a' ∈ t.cur ∨ .relook o' a' ∈ t.cur) →
        .release a' ∈ t.cur) (fun j => h.under j o' a') i _ ?_ j
      intro hm
      simp only [List.mem_cons, reduceCtorEq, false_or, Ins.relook.injEq, Ins.release.injEq] at hm ⊢
      rcases hm with hm | hm | hm | hm
      · right; simpa using hund o' a' (Or.inl (List.mem_cons_of_mem _ hm))
      · right; simpa using hund o' a' (Or.inr (Or.inl (List.mem_cons_of_mem _ hm)))
      · left; exact hm.2
      · right; simpa using hund o' a' (Or.inr (Or.inr (List.mem_cons_of_mem _ hm)))
    · have hp := paired_tail hpair
      exact update_forall (P := fun _ t => PairedIns t.cur) h.paired i _ hp
    · intro j o' a'
      refine update_forall (P := fun _ t => .comp o' a' ∈ t.cur → w.cache o' a' = none ∧ (o', a') ∉ w.log)
        (fun j => h.fresh j o' a') i _ ?_ j
      intro hm
      exact hfr o' a' (by simpa using hm)
    · intro o' a' hlog
      rcases h.kept o' a' hlog with h1 | ⟨j, c', v, h1, h2⟩
      · exact Or.inl h1
      · right
        have hj : j ≠ i := fun e => by subst e; rw [hc] at h1; cases h1
        refine ⟨j, c', v, ?_, ?_⟩
        · simpa [Function.update_of_ne hj] using h1
        · simpa [Function.update_of_ne hj] using h2
  | comp o a c v hc =>
    rw [hc] at hord hund hpair hfr
    obtain ⟨hf1, hf2⟩ := hfr o a (by simp)
    have hla : w.lock a = some i := (h.held a i).2 (by rw [hc]; exact hund o a (by simp))
    obtain ⟨⟨c', hc'⟩, hp'⟩ := hpair
    have hcs : ∀ o', .comp o' a ∉ c := fun o' hm => by
      have := inOrder_head hord (x := .comp o a) (y := .comp o' a) rfl hm rfl
      omega
    refine ⟨?_, ?_, ?_, ?_, ?_, ?_, ?_⟩
    · exact update_forall (P := fun _ t => InOrder depth t.cur) h.order i _ (inOrder_tail hord)
    · intro b
      refine update_forall (P := fun j t => w.lock b = some j ↔ .release b ∈ t.cur) (h.held b) i _ ?_
      rw [h.held b i, hc]; simp
    · intro j o' a'
      refine update_forall (P := fun _ t => (.comp o' a' ∈ t.cur ∨ .store o' a' ∈ t.cur ∨ .relook o' a' ∈ t.cur) →
        .release a' ∈ t.cur) (fun j => h.under j o' a') i _ ?_ j
      intro hm
      have := hund o' a' (by
        rcases hm with hm | hm | hm
        · exact Or.inl (List.mem_cons_of_mem _ hm)
        · exact Or.inr (Or.inl (List.mem_cons_of_mem _ hm))
        · exact Or.inr (Or.inr (List.mem_cons_of_mem _ hm)))
      simpa using this
    · exact update_forall (P := fun _ t => PairedIns t.cur) h.paired i _ hp'
    · intro j o' a'
      show .comp o' a' ∈ (Function.update w.thr i _ j).cur → w.cache o' a' = none ∧ (o', a') ∉ (o, a) :: w.log
      by_cases hj : j = i
      · subst hj
        rw [Function.update_self]
        intro hm
        obtain ⟨g1, g2⟩ := hfr o' a' (List.mem_cons_of_mem _ hm)
        refine ⟨g1, fun hl => ?_⟩
        rcases List.mem_cons.1 hl with e | hl
        · injection e with e1 e2; subst e2; exact hcs o' hm
        · exact g2 hl
      · rw [Function.update_of_ne hj]
        intro hm
        obtain ⟨g1, g2⟩ := h.fresh j o' a' hm
        refine ⟨g1, fun hl => ?_⟩
        rcases List.mem_cons.1 hl with e | hl
        · injection e with e1 e2
          subst e2
          have := (h.held a' j).2 (h.under j o' a' (Or.inl hm))
          rw [hla] at this
          injection this with this
          exact hj this.symm
        · exact g2 hl
    · exact List.nodup_cons.2 ⟨hf2, h.once⟩
    · intro o' a' hl
      rcases List.mem_cons.1 hl with e | hl
      · injection e with e1 e2
        subst e1 e2
        right
        exact ⟨i, c', v, by simpa using hc', by simp⟩
      · rcases h.kept o' a' hl with h1 | ⟨j, c'', v', h1, h2⟩
        · exact Or.inl h1
        · right
          have hj : j ≠ i := fun e => by subst e; rw [hc] at h1; cases h1
          refine ⟨j, c'', v', ?_, ?_⟩
          · simpa [Function.update_of_ne hj] using h1
          · simpa [Function.update_of_ne hj] using h2
  | fail o a c e hc =>
    rw [hc] at hord hund hpair hfr
    have hno : ∀ x, x ∈ unwind c → (∃ b, x = .release b) ∨ x = .ret := by
      intro x hx
      have := (List.mem_filter.1 hx).2
      cases x <;> simp_all
    refine lockInv_local h i _ ?_ (inOrder_unwind (inOrder_tail hord)) ?_ (paired_unwind c) ?_ ?_
    · intro b; rw [hc, mem_unwind]; simp
    · intro o' a' hm
      rcases hm with hm | hm | hm <;> rcases hno _ hm with ⟨b, e⟩ | e <;> cases e
    · intro o' a' hm
      rcases hno _ hm with ⟨b, e⟩ | e <;> cases e
    · intro o' a' c' v' e; rw [hc] at e; simp at e
  | store o a c v hc hr =>
    rw [hc] at hord hund hpair hfr
    have hla : w.lock a = some i := (h.held a i).2 (by rw [hc]; exact hund o a (by simp))
    have hcs : ∀ o', .comp o' a ∉ c := fun o' hm => by
      have := inOrder_head hord (x := .store o a) (y := .comp o' a) rfl hm rfl
      omega
    have hcache : ∀ o' a', ¬ (o' = o ∧ a' = a) →
        Function.update w.cache o (Function.update (w.cache o) a (some v)) o' a' = w.cache o' a' := by
      intro o' a' hne
      by_cases ho : o' = o
      · subst ho
        rw [Function.update_self, Function.update_of_ne (fun e => hne ⟨rfl, e⟩)]
      · rw [Function.update_of_ne ho]
    refine ⟨?_, ?_, ?_, ?_, ?_, h.once, ?_⟩
    · exact update_forall (P := fun _ t => InOrder depth t.cur) h.order i _ (inOrder_tail hord)
    · intro b
      refine update_forall (P := fun j t => w.lock b = some j ↔ .release b ∈ t.cur) (h.held b) i _ ?_
      rw [h.held b i, hc]; simp
    · intro j o' a'
      refine update_forall (P := fun _ t => (.comp o' a' ∈ t.cur ∨ .store o' a' ∈ t.cur ∨ .relook o' a' ∈ t.cur) →
        .release a' ∈ t.cur) (fun j => h.under j o' a') i _ ?_ j
      intro hm
      have := hund o' a' (by
        rcases hm with hm | hm | hm
        · exact Or.inl (List.mem_cons_of_mem _ hm)
        · exact Or.inr (Or.inl (List.mem_cons_of_mem _ hm))
        · exact Or.inr (Or.inr (List.mem_cons_of_mem _ hm)))
      simpa using this
    · exact update_forall (P := fun _ t => PairedIns t.cur) h.paired i _ (paired_tail hpair)
    · intro j o' a' hm
      show Function.update w.cache o (Function.update (w.cache o) a (some v)) o' a' = none ∧ (o', a') ∉ w.log
      have hne : ¬ (o' = o ∧ a' = a) := by
        rintro ⟨rfl, rfl⟩
        by_cases hj : j = i
        · subst hj
          simp only [Function.update_self] at hm
          exact hcs o' hm
        · simp only [Function.update_of_ne hj] at hm
          have := (h.held a' j).2 (h.under j o' a' (Or.inl hm))
          rw [hla] at this
          injection this with this
          exact hj this.symm
      rw [hcache o' a' hne]
      by_cases hj : j = i
      · subst hj
        simp only [Function.update_self] at hm
        exact hfr o' a' (List.mem_cons_of_mem _ hm)
      · simp only [Function.update_of_ne hj] at hm
        exact h.fresh j o' a' hm
    · intro o' a' hl
      show Function.update w.cache o (Function.update (w.cache o) a (some v)) o' a' ≠ none ∨ _
      by_cases hne : o' = o ∧ a' = a
      · left
        rw [hne.1, hne.2, Function.update_self, Function.update_self]
        simp
      · rw [hcache o' a' hne]
        rcases h.kept o' a' hl with h1 | ⟨j, c'', v', h1, h2⟩
        · exact Or.inl h1
        · right
          have hj : j ≠ i := fun e => by
            subst e
            rw [hc] at h1
            injection h1 with h1
            injection h1 with e1 e2
            exact hne ⟨e1.symm, e2.symm⟩
          refine ⟨j, c'', v', ?_, ?_⟩
          · simpa [Function.update_of_ne hj] using h1
          · simpa [Function.update_of_ne hj] using h2
  | skip o a c hc hr =>
    rw [hc] at hord hund hpair hfr
    refine lockInv_local h i _ (by intro b; rw [hc]; simp) (inOrder_tail hord) ?_ (paired_tail hpair)
      (fun o a hm => hfr o a (List.mem_cons_of_mem _ hm)) (fun o' a' c' v' _ => hr v')
    intro o' a' hm
    have := hund o' a' (by
      rcases hm with hm | hm | hm
      · exact Or.inl (List.mem_cons_of_mem _ hm)
      · exact Or.inr (Or.inl (List.mem_cons_of_mem _ hm))
      · exact Or.inr (Or.inr (List.mem_cons_of_mem _ hm)))
    simpa using this
  | free a c hc =>
    rw [hc] at hord hund hpair hfr
    have hla : w.lock a = some i := (h.held a i).2 (by rw [hc]; simp)
    have hrc : .release a ∉ c := fun hm => by
      have := inOrder_head hord (x := .release a) (y := .release a) rfl hm rfl
      omega
    refine ⟨?_, ?_, ?_, ?_, ?_, h.once, ?_⟩
    · exact update_forall (P := fun _ t => InOrder depth t.cur) h.order i _ (inOrder_tail hord)
    · intro b j
      show Function.update w.lock a none b = some j ↔ .release b ∈ (Function.update w.thr i _ j).cur
      by_cases hb : b = a
      · subst hb
        rw [Function.update_self]
        by_cases hj : j = i
        · subst hj; simpa using hrc
        · rw [Function.update_of_ne hj]
          refine ⟨fun e => (by cases e), fun hm => ?_⟩
          have := (h.held b j).2 hm
          rw [hla] at this
          injection this with this
          exact absurd this.symm hj
      · rw [Function.update_of_ne hb]
        by_cases hj : j = i
        · subst hj
          rw [Function.update_self, h.held b j, hc]
          simp [hb]
        · rw [Function.update_of_ne hj]; exact h.held b j
    · intro j o' a'
      refine update_forall (P := fun _ t => (.comp o' a' ∈ t.cur ∨ .store o' a' ∈ t.cur ∨ .relook o' a' ∈ t.cur) →
        .release a' ∈ t.cur) (fun j => h.under j o' a') i _ ?_ j
      intro hm
      have := hund o' a' (by
        rcases hm with hm | hm | hm
        · exact Or.inl (List.mem_cons_of_mem _ hm)
        · exact Or.inr (Or.inl (List.mem_cons_of_mem _ hm))
        · exact Or.inr (Or.inr (List.mem_cons_of_mem _ hm)))
      rcases List.mem_cons.1 this with e | this
      · injection e with e
        subst e
        exfalso
        rcases hm with hm | hm | hm
        · have := inOrder_head hord (x := .release a') (y := .comp o' a') rfl hm rfl; omega
        · have := inOrder_head hord (x := .release a') (y := .store o' a') rfl hm rfl; omega
        · have := inOrder_head hord (x := .release a') (y := .relook o' a') rfl hm rfl; omega
      · exact this
    · exact update_forall (P := fun _ t => PairedIns t.cur) h.paired i _ (paired_tail hpair)
    · intro j o' a'
      refine update_forall (P := fun _ t => .comp o' a' ∈ t.cur → w.cache o' a' = none ∧ (o', a') ∉ w.log)
        (fun j => h.fresh j o' a') i _ ?_ j
      intro hm
      exact hfr o' a' (List.mem_cons_of_mem _ hm)
    · intro o' a' hlog
      rcases h.kept o' a' hlog with h1 | ⟨j, c', v, h1, h2⟩
      · exact Or.inl h1
      · right
        have hj : j ≠ i := fun e => by subst e; rw [hc] at h1; cases h1
        refine ⟨j, c', v, ?_, ?_⟩
        · simpa [Function.update_of_ne hj] using h1
        · simpa [Function.update_of_ne hj] using h2
  | ret c out' hc =>
    rw [hc] at hord hund hpair hfr
    refine lockInv_local h i _ (by intro b; rw [hc]; simp) (inOrder_tail hord) ?_ (paired_tail hpair)
      (fun o a hm => hfr o a (List.mem_cons_of_mem _ hm)) (fun o' a' c' v' e => by rw [hc] at e; simp at e)
    intro o' a' hm
    have := hund o' a' (by
      rcases hm with hm | hm | hm
      · exact Or.inl (List.mem_cons_of_mem _ hm)
      · exact Or.inr (Or.inl (List.mem_cons_of_mem _ hm))
      · exact Or.inr (Or.inr (List.mem_cons_of_mem _ hm)))
    simpa using this

end
end Gcl
