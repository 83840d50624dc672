import Verif.Props.Kinematics
/-! # C114: combined masses of physical particles add up -/
namespace Gcl
set_option autoImplicit false
open Spec Real

/-- A physical particle: energy not negative and not less than the momentum. -/
def Spec.Physical (p : P4) : Prop := 0 ≤ p.e ∧ p.x ^ 2 + p.y ^ 2 + p.z ^ 2 ≤ p.e ^ 2

theorem physical_mass {p : P4} (h : Physical p) : p.mass = sqrt (p.e ^ 2 - (p.x ^ 2 + p.y ^ 2 + p.z ^ 2)) := by
  have h1 := (C67_mass p).1
  have h2 : 0 ≤ p.mass := by
    by_contra hn
    push Not at hn
    have : p.mass * |p.mass| < 0 := mul_neg_of_neg_of_pos hn (abs_pos.2 hn.ne)
    have := h.2
    linarith
  rw [abs_of_nonneg h2] at h1
  rw [← h1, ← sq, sqrt_sq h2]

theorem physical_add {p q : P4} (hp : Physical p) (hq : Physical q) :
    Physical (padd p q) ∧ p.mass + q.mass ≤ (padd p q).mass := by
  obtain ⟨p0, p1⟩ := hp
  obtain ⟨q0, q1⟩ := hq
  have hmp := physical_mass ⟨p0, p1⟩
  have hmq := physical_mass ⟨q0, q1⟩
  have sp : p.mass ^ 2 = p.e ^ 2 - (p.x ^ 2 + p.y ^ 2 + p.z ^ 2) := by rw [hmp, sq_sqrt (by linarith)]
  have sq' : q.mass ^ 2 = q.e ^ 2 - (q.x ^ 2 + q.y ^ 2 + q.z ^ 2) := by rw [hmq, sq_sqrt (by linarith)]
  have np : 0 ≤ p.mass := by rw [hmp]; exact sqrt_nonneg _
  have nq : 0 ≤ q.mass := by rw [hmq]; exact sqrt_nonneg _
  -- Cauchy-Schwarz for `(m, x, y, z)`
  have cs : |p.mass * q.mass + (p.x * q.x + p.y * q.y + p.z * q.z)| ≤ p.e * q.e := by
    apply abs_le_of_sq_le_sq _ (mul_nonneg p0 q0)
    have e : (p.e * q.e) ^ 2 = (p.mass ^ 2 + (p.x ^ 2 + p.y ^ 2 + p.z ^ 2)) *
        (q.mass ^ 2 + (q.x ^ 2 + q.y ^ 2 + q.z ^ 2)) := by rw [sp, sq']; ring
    rw [e]
    nlinarith [sq_nonneg (p.mass * q.x - p.x * q.mass), sq_nonneg (p.mass * q.y - p.y * q.mass),
      sq_nonneg (p.mass * q.z - p.z * q.mass), sq_nonneg (p.x * q.y - p.y * q.x), sq_nonneg (p.x * q.z - p.z * q.x),
      sq_nonneg (p.y * q.z - p.z * q.y)]
  have cs' := (abs_le.1 cs).2
  have big : (p.mass + q.mass) ^ 2 ≤ (padd p q).e ^ 2 - ((padd p q).x ^ 2 + (padd p q).y ^ 2 + (padd p q).z ^ 2) := by
    simp only [padd]
    nlinarith
  have phys : Physical (padd p q) := by
    refine ⟨add_nonneg p0 q0, ?_⟩
    nlinarith [sq_nonneg (p.mass + q.mass)]
  refine ⟨phys, ?_⟩
  rw [physical_mass phys]
  exact le_sqrt_of_sq_le big

theorem physical_total (ps : List P4) (h : ∀ p ∈ ps, Physical p) :
    Physical (total ps) ∧ (ps.map P4.mass).sum ≤ (total ps).mass := by
  induction ps with
  | nil =>
    have h0 : Physical (total []) := by simp [Physical, total]
    refine ⟨h0, ?_⟩
    rw [physical_mass h0]
    simp
  | cons p ps ih =>
    obtain ⟨i1, i2⟩ := ih (fun q hq => h q (by simp [hq]))
    obtain ⟨j1, j2⟩ := physical_add (h p (by simp)) i1
    rw [total_cons, List.map_cons, List.sum_cons]
    exact ⟨j1, by linarith⟩

theorem combinedMass_physical (ps : List P4) (h : ∀ p ∈ ps, Physical p) : combinedMass ps = (total ps).mass := by
  obtain ⟨h1, -⟩ := physical_total ps h
  rw [(C67_combined ps).1, max_eq_right]
  rw [physical_mass h1]
  exact sqrt_nonneg _

/-- **C114** The combined mass of physical particles lies between the sum of their masses and the sum of their
energies. -/
theorem C114_bounds (ps : List P4) (h : ∀ p ∈ ps, Physical p) :
    (ps.map P4.mass).sum ≤ combinedMass ps ∧ combinedMass ps ≤ (ps.map P4.e).sum := by
  obtain ⟨h1, h2⟩ := physical_total ps h
  rw [combinedMass_physical ps h]
  refine ⟨h2, ?_⟩
  rw [physical_mass h1]
  have he : 0 ≤ (total ps).e := h1.1
  have hx := sq_nonneg (total ps).x
  have hy := sq_nonneg (total ps).y
  have hz := sq_nonneg (total ps).z
  have hs : sqrt ((total ps).e ^ 2 - ((total ps).x ^ 2 + (total ps).y ^ 2 + (total ps).z ^ 2)) ≤
      sqrt ((total ps).e ^ 2) := sqrt_le_sqrt (by linarith)
  rw [sqrt_sq he] at hs
  exact hs

theorem trueIdxs_shift (m : List Bool) (off : Nat) : trueIdxs m (off + 1) = (trueIdxs m off).map (· + 1) := by
  induction m generalizing off with
  | nil => rfl
  | cons b m ih => cases b <;> simp [trueIdxs, ih]

theorem gather_trueIdxs_sublist {α : Type} (a : List α) (m : List Bool) : (gather a (trueIdxs m)).Sublist a := by
  induction m generalizing a with
  | nil => simp [trueIdxs, gather]
  | cons b m ih =>
    cases a with
    | nil => simp [gather]
    | cons x a =>
      have h := ih a
      have e : ∀ is : List Nat, gather (x :: a) (is.map (· + 1)) = gather a is := by
        intro is
        simp [gather, List.filterMap_map, Function.comp_def]
      cases b
      · simp only [trueIdxs, trueIdxs_shift, e]
        exact h.cons _
      · simp only [trueIdxs, trueIdxs_shift]
        have : gather (x :: a) (0 :: (trueIdxs m).map (· + 1)) = x :: gather a (trueIdxs m) := by
          rw [← e]; simp [gather]
        rw [this]
        exact h.cons₂ _

/-- **C114** The combined mass of two sets together is at least the sum of their combined masses. -/
theorem C114_union (ps qs : List P4) (hp : ∀ p ∈ ps, Physical p) (hq : ∀ q ∈ qs, Physical q) :
    combinedMass ps + combinedMass qs ≤ combinedMass (ps ++ qs) := by
  have hpq : ∀ r ∈ ps ++ qs, Physical r := by
    intro r hr
    rcases List.mem_append.1 hr with h | h
    · exact hp r h
    · exact hq r h
  rw [combinedMass_physical ps hp, combinedMass_physical qs hq, combinedMass_physical _ hpq, total_append]
  exact (physical_add (physical_total ps hp).1 (physical_total qs hq).1).2

/-- **C114** Taking particles away, by any mask, never increases the combined mass. -/
theorem C114_mask (ps sel : List P4) (m : List Bool) (h : ∀ p ∈ ps, Physical p)
    (hsel : (Key.mask m).apply ps = .ok sel) : combinedMass sel ≤ combinedMass ps := by
  have hsub : sel.Sublist ps := by
    by_cases hl : m.length = ps.length
    · simp only [Key.apply, Key.resolve, if_pos hl, Except.ok.injEq] at hsel
      rw [← hsel]
      exact gather_trueIdxs_sublist ps m
    · simp [Key.apply, Key.resolve, if_neg hl] at hsel
  obtain ⟨rest, hr⟩ := hsub.exists_perm_append
  have hsp : ∀ p ∈ sel, Physical p := fun p hp => h p (hsub.subset hp)
  have hrp : ∀ p ∈ rest, Physical p := fun p hp => h p (hr.mem_iff.2 (by simp [hp]))
  have h1 := C114_union sel rest hsp hrp
  rw [(C67_invariant ps (sel ++ rest) 0).1 hr]
  have : 0 ≤ combinedMass rest := (C67_combined rest).2.1
  linarith

/-- **C114** For massless particles the combined mass of a pair is `√(2 (E₁E₂ - p₁·p₂))`. -/
theorem C114_pair (p q : P4) (hp : Physical p) (hq : Physical q) (mp : p.mass = 0) (mq : q.mass = 0) :
    combinedMass [p, q] ^ 2 = 2 * (p.e * q.e - (p.x * q.x + p.y * q.y + p.z * q.z)) := by
  have h1 := (C67_mass p).1
  have h2 := (C67_mass q).1
  rw [mp] at h1
  rw [mq] at h2
  obtain ⟨t1, -⟩ := physical_total [p, q] (by simp [hp, hq])
  have : mdot (total [p, q]) (total [p, q]) = 2 * (p.e * q.e - (p.x * q.x + p.y * q.y + p.z * q.z)) := by
    simp only [mdot, total, List.map_cons, List.map_nil, List.sum_cons, List.sum_nil]
    simp only [abs_zero, mul_zero] at h1 h2
    linarith
  rw [(C67_combined [p, q]).2.2 ?_, this]
  have := t1.2
  unfold mdot
  nlinarith

/-- **C114** The hypothesis is needed: masses of particles with negative energy do not add up. -/
theorem C114_false : ¬ ∀ ps : List P4, (ps.map P4.mass).sum ≤ combinedMass ps := by
  intro h
  have h1 := h [⟨0, 0, 0, 1⟩, ⟨0, 0, 0, -1⟩]
  have m1 := (C67_mass ⟨0, 0, 0, 1⟩).1
  have m2 := (C67_mass ⟨0, 0, 0, -1⟩).1
  have pos : ∀ m : ℝ, m * |m| = 1 → 0 < m := by
    intro m hm
    by_contra hn
    push Not at hn
    have := mul_nonpos_of_nonpos_of_nonneg hn (abs_nonneg m)
    linarith
  have p1 := pos _ (by rw [m1]; norm_num)
  have p2 := pos _ (by rw [m2]; norm_num)
  have hc : combinedMass [⟨0, 0, 0, 1⟩, ⟨0, 0, 0, -1⟩] = 0 := by
    simp [combinedMass, total]
  rw [hc] at h1
  simp only [List.map_cons, List.map_nil, List.sum_cons, List.sum_nil] at h1
  linarith

-- non-vacuity: a massive and a massless particle
example : ∀ p ∈ [(⟨1, 2, 2, 5⟩ : P4), ⟨3, 0, 4, 5⟩], Physical p := by
  simp [Physical]; norm_num

end Gcl
