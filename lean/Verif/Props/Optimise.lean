import Verif.Spec.Optimise
import Verif.Props.EventShape
/-! # C97: `thrust` and `spherocity` -/
namespace Gcl
set_option autoImplicit false
open Spec Real

theorem thrustAlong_angles (ps : List P4) (φ θ : ℝ) : thrustAlong ps (anglesToAxis φ θ) = thrustAt ps φ θ := rfl

theorem spherocityAlong_angles (ps : List P4) (φ θ : ℝ) :
    spherocityAlong ps (anglesToAxis φ θ) = spherocityAt ps φ θ := rfl

theorem unitVec_angles (φ θ : ℝ) : UnitVec (anglesToAxis φ θ) := by
  unfold UnitVec anglesToAxis
  nlinarith [sin_sq_add_cos_sq φ, sin_sq_add_cos_sq θ]

/-- What a run that keeps to the contract returns, for an objective whose value (where it has one) is `val`. -/
theorem honest_run (objective : ℝ → ℝ → Py (ℝ × ℝ × ℝ)) (val : ℝ × ℝ → ℝ)
    (hval : ∀ x r, objective x.1 x.2 = .ok r → r.1 = val x) :
    ∀ (o : Opt) (asked : List ((ℝ × ℝ) × ℝ)), Honest asked o →
      (∀ q ∈ asked, q.2 = val q.1 ∧ InDomain q.1 ∧ ∃ r, objective q.1.1 q.1.2 = .ok r) →
      (∀ x f, o.run objective = .ok (x, f) → f = val x ∧ InDomain x ∧ (∃ r, objective x.1 x.2 = .ok r) ∧
        ∀ g, asked.getLast? = some g → f ≤ val g.1) ∧
      (∀ e, o.run objective = .error e → ∃ x, InDomain x ∧ objective x.1 x.2 = .error e) := by
  intro o
  induction o with
  | stop x f =>
    intro asked h hq
    cases h with
    | stop hmem hlast hle =>
      rename_i first
      refine ⟨fun x' f' hr => ?_, fun e he => by simp [Opt.run] at he⟩
      simp only [Opt.run, Except.ok.injEq, Prod.mk.injEq] at hr
      obtain ⟨rfl, rfl⟩ := hr
      obtain ⟨h1, h2, h3⟩ := hq _ hmem
      refine ⟨h1, h2, h3, fun g hg => ?_⟩
      rw [hlast] at hg
      obtain rfl := Option.some.inj hg
      have hfm : first ∈ asked := List.mem_of_getLast? hlast
      rw [← (hq first hfm).1]
      exact hle
  | ask x next ih =>
    intro asked h hq
    cases h with
    | ask hdom hnext =>
      cases ho : objective x.1 x.2 with
      | error e =>
        refine ⟨fun x' f' hr => ?_, fun e' he => ?_⟩
        · simp [Opt.run, ho] at hr
        · simp only [Opt.run, ho, Except.error.injEq] at he
          subst he
          exact ⟨x, hdom, ho⟩
      | ok r =>
        have hq' : ∀ q ∈ (x, r.1) :: asked,
            q.2 = val q.1 ∧ InDomain q.1 ∧ ∃ r, objective q.1.1 q.1.2 = .ok r := by
          intro q hm
          rcases List.mem_cons.1 hm with rfl | hm
          · exact ⟨hval x r ho, hdom, r, ho⟩
          · exact hq q hm
        obtain ⟨h1, h2⟩ := ih r _ (hnext r) hq'
        refine ⟨fun x' f' hr => ?_, fun e he => ?_⟩
        · simp only [Opt.run, ho] at hr
          obtain ⟨a1, a2, a3, a4⟩ := h1 x' f' hr
          refine ⟨a1, a2, a3, fun g hg => a4 g ?_⟩
          cases asked with
          | nil => simp at hg
          | cons b t => simpa using hg
        · simp only [Opt.run, ho] at he
          exact h2 e he

/-- The whole run from a guess inside the bounds. -/
theorem optimiser_run (minimize : ℝ × ℝ → Opt) (hopt : Optimiser minimize) (guess : ℝ × ℝ)
    (hg : InDomain guess) (objective : ℝ → ℝ → Py (ℝ × ℝ × ℝ)) (val : ℝ × ℝ → ℝ)
    (hval : ∀ x r, objective x.1 x.2 = .ok r → r.1 = val x) :
    (∀ x f, (minimize guess).run objective = .ok (x, f) → f = val x ∧ InDomain x ∧
      (∃ r, objective x.1 x.2 = .ok r) ∧ f ≤ val guess) ∧
    (∀ e, (minimize guess).run objective = .error e → ∃ x, InDomain x ∧ objective x.1 x.2 = .error e) := by
  obtain ⟨next, h1, h2⟩ := hopt guess
  rw [h1]
  simp only [Opt.run]
  cases ho : objective guess.1 guess.2 with
  | error e =>
    refine ⟨fun x f hr => by simp at hr, fun e' he => ?_⟩
    simp only [Except.error.injEq] at he
    subst he
    exact ⟨guess, hg, ho⟩
  | ok r =>
    have hq : ∀ q ∈ [(guess, r.1)], q.2 = val q.1 ∧ InDomain q.1 ∧ ∃ r, objective q.1.1 q.1.2 = .ok r := by
      intro q hm
      simp only [List.mem_singleton] at hm
      subst hm
      exact ⟨hval guess r ho, hg, r, ho⟩
    obtain ⟨a, b⟩ := honest_run objective val hval (next r) _ (h2 r) hq
    refine ⟨fun x f hr => ?_, fun e he => b e he⟩
    obtain ⟨a1, a2, a3, a4⟩ := a x f hr
    exact ⟨a1, a2, a3, a4 (guess, r.1) rfl⟩

/-- **C97** (thrust): for every optimiser keeping to its contract, every initial guess and every event of moving
particles, `thrust` returns the thrust `Σ|p·n| / Σ|p|` along a unit vector `n`, which is the axis returned when asked
for; it lies between 0 and 1 and is not smaller than along the initial guess.  For an event without particles, or with
a particle at rest, `ZeroDivisionError` is raised. -/
theorem C97_thrust (minimize : ℝ × ℝ → Opt) (hopt : Optimiser minimize) (guess : ℝ × ℝ) (hg : InDomain guess)
    (returnAxis : Bool) (ps : List P4) :
    (ps ≠ [] → (∀ p ∈ ps, Moving p) → ∃ n, UnitVec n ∧
      thrust minimize guess returnAxis ps = .ok (thrustAlong ps n, if returnAxis then some n else none) ∧
      0 ≤ thrustAlong ps n ∧ thrustAlong ps n ≤ 1 ∧
      thrustAlong ps (anglesToAxis guess.1 guess.2) ≤ thrustAlong ps n) ∧
    (¬ (ps ≠ [] ∧ ∀ p ∈ ps, Moving p) → thrust minimize guess returnAxis ps = .error .zeroDivisionError) := by
  have hex := fun φ θ => C76_exact φ θ ps
  constructor
  · intro hne hmov
    have hval : ∀ (x : ℝ × ℝ) r, thrustWithGrad x.1 x.2 ps = .ok r → r.1 = -thrustAt ps x.1 x.2 := by
      intro x r hr
      obtain ⟨g1, g2, h1, -⟩ := C69_thrust x.1 x.2 ps hne hmov
      rw [hr] at h1
      cases h1; rfl
    obtain ⟨hok, herr⟩ := optimiser_run minimize hopt guess hg (fun φ θ => thrustWithGrad φ θ ps)
      (fun x => -thrustAt ps x.1 x.2) hval
    unfold thrust
    cases hrun : (minimize guess).run (fun φ θ => thrustWithGrad φ θ ps) with
    | error e =>
      obtain ⟨x, -, hx⟩ := herr e hrun
      obtain ⟨r, hr⟩ := (hex x.1 x.2).1.2 ⟨hne, hmov⟩
      rw [hr] at hx
      cases hx
    | ok xf =>
      obtain ⟨x, f⟩ := xf
      obtain ⟨rfl, -, -, h4⟩ := hok x f hrun
      obtain ⟨-, -, -, h5, h6, -⟩ := C69_thrust x.1 x.2 ps hne hmov
      refine ⟨anglesToAxis x.1 x.2, unitVec_angles _ _, ?_, ?_, ?_, ?_⟩
      · simp [thrustAlong_angles]
      · rw [thrustAlong_angles]; exact h5
      · rw [thrustAlong_angles]; exact h6
      · rw [thrustAlong_angles, thrustAlong_angles]; linarith
  · intro hn
    have herr : ∀ φ θ, thrustWithGrad φ θ ps = .error .zeroDivisionError := by
      intro φ θ
      obtain ⟨h1, -, -, h4⟩ := hex φ θ
      cases h : thrustWithGrad φ θ ps with
      | ok r => exact absurd (h1.1 ⟨r, h⟩) hn
      | error e => rw [h4 e (Or.inl h)]
    obtain ⟨next, h1, -⟩ := hopt guess
    simp [thrust, h1, Opt.run, herr]

/-- **C97** (the thrust of the event): if the value found is the least value of the objective inside the bounds, then
`thrust` returns the maximum of `Σ|p·n| / Σ|p|` over *all* unit vectors. -/
theorem C97_global (minimize : ℝ × ℝ → Opt) (guess : ℝ × ℝ) (returnAxis : Bool) (ps : List P4)
    (t : ℝ) (a : Option (ℝ × ℝ × ℝ)) (hr : thrust minimize guess returnAxis ps = .ok (t, a))
    (hbest : ∀ φ θ, InDomain (φ, θ) → thrustAt ps φ θ ≤ t) (n : ℝ × ℝ × ℝ) (hn : UnitVec n) :
    thrustAlong ps n ≤ t := by
  obtain ⟨φ, θ, h1, h2, h3, h4, h5⟩ := C90_domain n.1 n.2.1 n.2.2 hn
  have hle := hbest φ θ ⟨h1, h2, h3, h4⟩
  rw [← thrustAlong_angles] at hle
  rcases h5 with h5 | h5
  · rw [h5] at hle; exact hle
  · rw [h5] at hle
    have : thrustAlong ps (-n.1, -n.2.1, -n.2.2) = thrustAlong ps n := by
      unfold thrustAlong
      congr 1
      congr 1
      funext p
      rw [← abs_neg]
      congr 1
      ring
    rwa [this] at hle

/-- **C97** (spherocity): when `spherocity` returns, it returns `(4/π · Σ|p × n| / Σ|p|)²` along a unit vector `n`, the
axis returned when asked for; the value is positive and not larger than along the initial guess.  Otherwise it raises
`ZeroDivisionError`, because there are no particles or because the optimiser asked for an axis along which a particle
moves (or a particle is at rest). -/
theorem C97_spherocity (minimize : ℝ × ℝ → Opt) (hopt : Optimiser minimize) (guess : ℝ × ℝ)
    (hg : InDomain guess) (returnAxis : Bool) (ps : List P4) :
    (∃ n, UnitVec n ∧
      spherocity minimize guess returnAxis ps = .ok (spherocityAlong ps n, if returnAxis then some n else none) ∧
      0 < spherocityAlong ps n ∧
      spherocityAlong ps n ≤ spherocityAlong ps (anglesToAxis guess.1 guess.2)) ∨
    (spherocity minimize guess returnAxis ps = .error .zeroDivisionError ∧
      (ps = [] ∨ ∃ x, InDomain x ∧ ∃ p ∈ ps, offAxis x.1 x.2 p = 0)) := by
  have hex := fun φ θ => C76_exact φ θ ps
  have hoffpos : ∀ (x : ℝ × ℝ) r, spherocityWithGrad x.1 x.2 ps = .ok r →
      ps ≠ [] ∧ ∀ p ∈ ps, 0 < offAxis x.1 x.2 p := by
    intro x r hr
    obtain ⟨h1, h2⟩ := (hex x.1 x.2).2.2.1.1 ⟨r, hr⟩
    exact ⟨h1, fun p hp => lt_of_le_of_ne (sqrt_nonneg _) (Ne.symm (h2 p hp))⟩
  have hval : ∀ (x : ℝ × ℝ) r, spherocityWithGrad x.1 x.2 ps = .ok r → r.1 = spherocityAt ps x.1 x.2 := by
    intro x r hr
    obtain ⟨h1, h2⟩ := hoffpos x r hr
    obtain ⟨g1, g2, h3, -⟩ := C70_gradient x.1 x.2 ps h1 h2
    rw [hr] at h3
    cases h3; rfl
  obtain ⟨hok, herr⟩ := optimiser_run minimize hopt guess hg (fun φ θ => spherocityWithGrad φ θ ps)
    (fun x => spherocityAt ps x.1 x.2) hval
  unfold spherocity
  cases hrun : (minimize guess).run (fun φ θ => spherocityWithGrad φ θ ps) with
  | error e =>
    obtain ⟨x, hd, hx⟩ := herr e hrun
    have he : e = .zeroDivisionError := (hex x.1 x.2).2.2.2 e (Or.inr (Or.inr hx))
    subst he
    refine Or.inr ⟨rfl, ?_⟩
    by_contra hcon
    simp only [not_or, not_exists, not_and] at hcon
    obtain ⟨r, hr⟩ := (hex x.1 x.2).2.2.1.2 ⟨hcon.1, fun p hp => hcon.2 x hd p hp⟩
    rw [hr] at hx
    cases hx
  | ok xf =>
    obtain ⟨x, f⟩ := xf
    obtain ⟨rfl, -, ⟨r, hr⟩, h4⟩ := hok x f hrun
    obtain ⟨h1, h2⟩ := hoffpos x r hr
    refine Or.inl ⟨anglesToAxis x.1 x.2, unitVec_angles _ _, ?_, ?_, ?_⟩
    · simp [spherocityAlong_angles]
    · rw [spherocityAlong_angles]
      have hmov : ∀ p ∈ ps, Moving p := by
        intro p hp
        by_contra hm
        unfold Moving at hm
        simp only [not_or, not_not] at hm
        have := h2 p hp
        unfold offAxis at this
        rw [hm.1, hm.2.1, hm.2.2] at this
        simp at this
      have hN := sumOf_norm_pos h1 hmov
      have hC : 0 < sumOf (offAxis x.1 x.2) ps := by
        unfold sumOf
        apply List.sum_pos
        · intro y hy
          obtain ⟨p, hp, rfl⟩ := List.mem_map.1 hy
          exact h2 p hp
        · simpa using h1
      unfold spherocityAt
      have := pi_pos
      positivity
    · rw [spherocityAlong_angles, spherocityAlong_angles]; exact h4

/-- **C97** (pencil-like events): for particles all along one line, whose spherocity along that line is zero, that value
is never returned. -/
theorem C97_pencil (minimize : ℝ × ℝ → Opt) (hopt : Optimiser minimize) (guess : ℝ × ℝ) (hg : InDomain guess)
    (returnAxis : Bool) (ps : List P4) (u : ℝ × ℝ × ℝ)
    (hcol : ∀ p ∈ ps, ∃ c, p.x = c * u.1 ∧ p.y = c * u.2.1 ∧ p.z = c * u.2.2) :
    spherocityAlong ps u = 0 ∧
    ∀ s a, spherocity minimize guess returnAxis ps = .ok (s, a) → 0 < s := by
  constructor
  · have : sumOf (fun p => sqrt ((p.y * u.2.2 - p.z * u.2.1) ^ 2 + (p.z * u.1 - p.x * u.2.2) ^ 2 +
        (p.x * u.2.1 - p.y * u.1) ^ 2)) ps = 0 := by
      unfold sumOf
      apply List.sum_eq_zero
      intro y hy
      obtain ⟨p, hp, rfl⟩ := List.mem_map.1 hy
      obtain ⟨c, h1, h2, h3⟩ := hcol p hp
      rw [h1, h2, h3]
      have e : (c * u.2.1 * u.2.2 - c * u.2.2 * u.2.1) ^ 2 + (c * u.2.2 * u.1 - c * u.1 * u.2.2) ^ 2 +
        (c * u.1 * u.2.1 - c * u.2.1 * u.1) ^ 2 = 0 := by ring
      rw [e, sqrt_zero]
    simp [spherocityAlong, this]
  · intro s a hr
    rcases C97_spherocity minimize hopt guess hg returnAxis ps with ⟨n, -, h2, h3, -⟩ | ⟨h, -⟩
    · rw [hr] at h2
      cases h2
      exact h3
    · rw [hr] at h; cases h

/-- An optimiser that keeps to the contract: it asks at the guess and at the pole, and stops at the better. -/
noncomputable def twoPointOpt (g : ℝ × ℝ) : Opt :=
  .ask g (fun r => .ask (0, 0) (fun s => if s.1 ≤ r.1 then .stop (0, 0) s.1 else .stop g r.1))

example : Optimiser twoPointOpt := by
  intro g
  refine ⟨_, rfl, fun r => .ask ?_ (fun s => ?_)⟩
  · have := pi_pos
    unfold InDomain
    constructor <;> [skip; constructor <;> [skip; constructor]] <;> simp <;> linarith
  · show Honest _ (if s.1 ≤ r.1 then .stop (0, 0) s.1 else .stop g r.1)
    split
    · next h => exact .stop (first := (g, r.1)) (by simp) rfl h
    · exact .stop (first := (g, r.1)) (by simp) rfl le_rfl

end Gcl
