/-
Properties C36, C37 and C39: step control, progress in time, uniform output times.
-/
import Verif.Integrator.RKModel
import Mathlib.Tactic.Linarith
import Mathlib.Tactic.NormNum
import Mathlib.Tactic.Positivity
import Mathlib.Tactic.Ring
import Mathlib.Tactic.FieldSimp
import Mathlib.Analysis.SpecificLimits.Basic

namespace Softlib

open Softlib.Integrator

noncomputable section

/-! ### C36 -/

/-- C36: a step is accepted exactly when its error estimate is a number not above one; NaN and
infinity are rejected. -/
theorem C36_accepted_iff (fl : ℝ → ℝ) (p : Par) (c : Ctl) (h : ℝ) (err : Err) :
    (updateTimestep fl p c h err).1 = true ↔ ∃ e, err = .val e ∧ e ≤ 1 := by
  cases err with
  | nan => simp [updateTimestep]
  | inf => simp [updateTimestep]
  | val e =>
    by_cases he : e ≤ 1
    · simp [updateTimestep, he]
    · simp [updateTimestep, he]

/-- The flag `previous_step_rejected` records exactly the last decision. -/
theorem C36_flag (fl : ℝ → ℝ) (p : Par) (c : Ctl) (h : ℝ) (err : Err) :
    (updateTimestep fl p c h err).2.rejected = !(updateTimestep fl p c h err).1 := by
  cases err with
  | nan => simp [updateTimestep]
  | inf => simp [updateTimestep]
  | val e => by_cases he : e ≤ 1 <;> simp [updateTimestep, he]

/-- The power occurring after a rejection is at most one. -/
theorem pow_le_one_of_gt {e a : ℝ} (he : 1 < e) (ha : 0 ≤ a) : e ^ (-a) ≤ 1 :=
  Real.rpow_le_one_of_one_le_of_nonpos (le_of_lt he) (by linarith)

theorem clamp_range (x : ℝ) {m M : ℝ} (h : m ≤ M) :
    m ≤ (if (if x < m then m else x) > M then M else (if x < m then m else x)) ∧
    (if (if x < m then m else x) > M then M else (if x < m then m else x)) ≤ M := by
  by_cases h1 : x < m
  · simp only [if_pos h1]
    rw [if_neg (not_lt.2 h)]
    exact ⟨le_refl _, h⟩
  · simp only [if_neg h1]
    by_cases h2 : x > M
    · rw [if_pos h2]
      exact ⟨h, le_refl _⟩
    · rw [if_neg h2]
      exact ⟨not_lt.1 h1, not_lt.1 h2⟩

/-- C36, range: with the default parameters the next step is between 0.2 and 10 times the
present one, for every error estimate that is not NaN and every history.
Missing: NaN, see `C36_refuted`. -/
theorem C36_range_partial (c : Ctl) (h : ℝ) (err : Err) (hn : err ≠ .nan) :
    ∃ r, (updateTimestep id Par.default c h err).2.optimal = h * r ∧ 1 / 5 ≤ r ∧ r ≤ 10 := by
  cases err with
  | nan => exact absurd rfl hn
  | inf =>
    refine ⟨max 0 (1 / 5), rfl, le_max_right _ _, max_le (by norm_num) (by norm_num)⟩
  | val e =>
    by_cases he : e ≤ 1
    · simp only [updateTimestep, he, if_true, id, Par.default]
      generalize hx : (if e = 0 then (10 : ℝ) else _) = scale
      have hs : 1 / 5 ≤ scale ∧ scale ≤ 10 := by
        rw [← hx]
        split
        · norm_num
        · exact clamp_range _ (by norm_num)
      cases c.rejected with
      | true =>
        refine ⟨min scale 1, rfl, le_min hs.1 (by norm_num), le_trans (min_le_left _ _) hs.2⟩
      | false => exact ⟨scale, rfl, hs.1, hs.2⟩
    · simp only [updateTimestep, he, if_false, id, Par.default]
      refine ⟨_, rfl, le_max_right _ _, max_le ?_ (by norm_num)⟩
      have := pow_le_one_of_gt (not_le.1 he) (show (0 : ℝ) ≤ 1 / 5 by norm_num)
      linarith

/-- C36, after a rejection the step does not grow. -/
theorem C36_no_growth_after_rejection (c : Ctl) (h : ℝ) (err : Err) (hc : c.rejected = true) :
    ∃ r, (updateTimestep id Par.default c h err).2.optimal = h * r ∧ 0 < r ∧ r ≤ 1 := by
  by_cases hn : err = .nan
  · subst hn
    exact ⟨1 / 10, rfl, by norm_num, by norm_num⟩
  · obtain ⟨r0, h0, h1, -⟩ := C36_range_partial c h err hn
    cases err with
    | nan => exact absurd rfl hn
    | inf =>
      refine ⟨max 0 (1 / 5), rfl, ?_, max_le (by norm_num) (by norm_num)⟩
      exact lt_of_lt_of_le (by norm_num) (le_max_right (0 : ℝ) (1 / 5))
    | val e =>
      by_cases he : e ≤ 1
      · simp only [updateTimestep, he, if_true, id, hc]
        refine ⟨_, rfl, ?_, min_le_right _ _⟩
        refine lt_min ?_ one_pos
        simp only [Par.default]
        split
        · norm_num
        · exact lt_of_lt_of_le (by norm_num) (clamp_range _ (by norm_num : (1 / 5 : ℝ) ≤ 10)).1
      · simp only [updateTimestep, he, if_false, id, Par.default]
        refine ⟨_, rfl, lt_of_lt_of_le (by norm_num) (le_max_right _ _), max_le ?_ (by norm_num)⟩
        have := pow_le_one_of_gt (not_le.1 he) (show (0 : ℝ) ≤ 1 / 5 by norm_num)
        linarith

/-- C36, a rejected step shrinks: to at most nine tenths and at least a tenth. -/
theorem C36_rejected_shrinks (c : Ctl) (h : ℝ) (err : Err)
    (hr : (updateTimestep id Par.default c h err).1 = false) :
    ∃ r, (updateTimestep id Par.default c h err).2.optimal = h * r ∧ 1 / 10 ≤ r ∧ r ≤ 9 / 10 := by
  cases err with
  | nan => exact ⟨1 / 10, rfl, by norm_num, by norm_num⟩
  | inf =>
    refine ⟨max 0 (1 / 5), rfl, ?_, max_le (by norm_num) (by norm_num)⟩
    exact le_trans (by norm_num) (le_max_right (0 : ℝ) (1 / 5))
  | val e =>
    by_cases he : e ≤ 1
    · simp [updateTimestep, he] at hr
    · simp only [updateTimestep, he, if_false, id, Par.default]
      refine ⟨_, rfl, le_trans (by norm_num) (le_max_right _ _), max_le ?_ (by norm_num)⟩
      have := pow_le_one_of_gt (not_le.1 he) (show (0 : ℝ) ≤ 1 / 5 by norm_num)
      linarith

/-- C36 as stated is refuted: a NaN error estimate reduces the step to a tenth. -/
theorem C36_refuted : (updateTimestep id Par.default Ctl.init 1 .nan).2.optimal = 1 / 10 := by
  norm_num [updateTimestep]

/-- C36 for a whole `Step`: if the first trial is rejected, the step proposed for the next call
is not larger than the accepted one. -/
theorem C36_step_no_growth (eps T : ℝ) (err : ℝ → Err) :
    ∀ (fuel : Nat) (h : ℝ) (c : Ctl), c.rejected = true → ∀ h' c',
      stepLoop id Par.default eps T err fuel h c = .accepted h' c' →
      ∃ r, c'.optimal = h' * r ∧ 0 < r ∧ r ≤ 1 := by
  intro fuel
  induction fuel with
  | zero => intro h c _ h' c' he; simp [stepLoop] at he
  | succ k ih =>
    intro h c hc h' c' he
    rw [stepLoop] at he
    cases hu : updateTimestep id Par.default c h (err h) with
    | mk b c1 =>
      rw [hu] at he
      cases b with
      | true =>
        simp only [LoopRes.accepted.injEq] at he
        obtain ⟨rfl, rfl⟩ := he
        have := C36_no_growth_after_rejection c h (err h) hc
        rw [hu] at this
        exact this
      | false =>
        simp only at he
        split at he
        · cases he
        · refine ih c1.optimal c1 ?_ h' c' he
          have := C36_flag id Par.default c h (err h)
          rw [hu] at this
          exact this

/-- A first trial that is accepted with error 1/4 lets the step grow; after a rejection it
stays. -/
example : (updateTimestep id Par.default Ctl.init 1 (.val 0)).2.optimal = 10 ∧
    (updateTimestep id Par.default ⟨1, 1, true⟩ 1 (.val 0)).2.optimal = 1 := by
  simp [updateTimestep, Par.default, Ctl.init]

/-! ### C37 -/

/-- The accepted step comes from the first one by factors between 1/10 and 9/10. -/
theorem loop_positive (eps T : ℝ) (err : ℝ → Err) :
    ∀ (fuel : Nat) (h : ℝ) (c : Ctl), 0 < h → ∀ h' c',
      stepLoop id Par.default eps T err fuel h c = .accepted h' c' → 0 < h' ∧ h' ≤ h ∧ 0 < c'.optimal := by
  intro fuel
  induction fuel with
  | zero => intro h c _ h' c' he; simp [stepLoop] at he
  | succ k ih =>
    intro h c hh h' c' he
    rw [stepLoop] at he
    cases hu : updateTimestep id Par.default c h (err h) with
    | mk b c1 =>
      rw [hu] at he
      cases b with
      | true =>
        simp only [LoopRes.accepted.injEq] at he
        obtain ⟨rfl, rfl⟩ := he
        refine ⟨hh, le_refl _, ?_⟩
        have hacc : (updateTimestep id Par.default c h (err h)).1 = true := by rw [hu]
        obtain ⟨e, he, -⟩ := (C36_accepted_iff id Par.default c h (err h)).1 hacc
        obtain ⟨r, h1, h2, -⟩ := C36_range_partial c h (err h) (by rw [he]; simp)
        rw [hu] at h1
        rw [h1]
        exact mul_pos hh (by linarith)
      | false =>
        simp only at he
        split at he
        · cases he
        · have hrej := C36_rejected_shrinks c h (err h) (by rw [hu])
          rw [hu] at hrej
          obtain ⟨r, h1, h2, h3⟩ := hrej
          have hp : 0 < c1.optimal := by rw [h1]; exact mul_pos hh (by linarith)
          obtain ⟨i1, i2, i3⟩ := ih c1.optimal c1 hp h' c' he
          refine ⟨i1, le_trans i2 ?_, i3⟩
          rw [h1]
          nlinarith

/-- C37, forward: if the proposed step is positive then the accepted step is positive, the new
time is larger, and the next proposal is positive again — for every equation, tolerance and
history (so by induction at every step). -/
theorem C37_forward (N : Nat) (junk : Nat → ℝ) (eps : ℝ) (dense : Bool)
    (trial : ℝ → ℝ → (Nat → ℝ) → (Nat → ℝ) → Trial) (fuel : Nat) (s : Store) (c : Ctl) (hc : 0 < c.optimal)
    (t : ℝ) (s' : Store) (c' : Ctl)
    (h : rkStep N junk id Par.default eps dense trial fuel s c = .ok t s' c') :
    timeAt s (s.n - 1) < t ∧ t ≤ timeAt s (s.n - 1) + c.optimal ∧ 0 < c'.optimal := by
  unfold rkStep at h
  split at h
  · cases h
  · simp only at h
    split at h
    · cases h
    · cases h
    · rename_i h' c1 hl
      obtain ⟨p1, p2, p3⟩ := loop_positive eps _ _ fuel c.optimal c hc h' c1 hl
      split at h
      · cases h
      · split at h
        · split at h
          · cases h
          · simp only [StepRes.ok.injEq] at h
            obtain ⟨rfl, -, rfl⟩ := h
            exact ⟨by linarith, by linarith, p3⟩
        · simp only [StepRes.ok.injEq] at h
          obtain ⟨rfl, -, rfl⟩ := h
          exact ⟨by linarith, by linarith, p3⟩

/-- The loop ends once rejections have brought the step below the threshold. -/
theorem loop_ends (eps T : ℝ) (err : ℝ → Err) :
    ∀ (fuel : Nat) (h : ℝ) (c : Ctl), |h| * (9 / 10) ^ fuel ≤ |T| * eps →
      ∀ extra, 1 ≤ fuel + extra → stepLoop id Par.default eps T err (fuel + extra) h c ≠ .fuel ∨ fuel = 0 := by
  intro fuel
  induction fuel with
  | zero => intro h c _ extra _; exact .inr rfl
  | succ k ih =>
    intro h c hb extra _
    left
    rw [show k + 1 + extra = (k + extra) + 1 from by omega, stepLoop]
    cases hu : updateTimestep id Par.default c h (err h) with
    | mk b c1 =>
      cases b with
      | true => simp
      | false =>
        simp only
        have hrej := C36_rejected_shrinks c h (err h) (by rw [hu])
        rw [hu] at hrej
        obtain ⟨r, h1, h2, h3⟩ := hrej
        have habs : |c1.optimal| ≤ |h| * (9 / 10) := by
          rw [h1, abs_mul, abs_of_nonneg (by linarith : 0 ≤ r)]
          exact mul_le_mul_of_nonneg_left h3 (abs_nonneg h)
        split
        · simp
        · rename_i hgt
          have hb' : |c1.optimal| * (9 / 10) ^ k ≤ |T| * eps := by
            refine le_trans ?_ hb
            rw [pow_succ]
            calc |c1.optimal| * (9 / 10) ^ k ≤ |h| * (9 / 10) * (9 / 10) ^ k :=
                  mul_le_mul_of_nonneg_right habs (by positivity)
              _ = |h| * ((9 / 10) ^ k * (9 / 10)) := by ring
          rcases Nat.eq_zero_or_pos k with hk | hk
          · subst hk
            simp only [pow_zero, mul_one] at hb'
            exact absurd hb' hgt
          · rcases ih c1.optimal c1 hb' extra (by omega) with h' | h'
            · exact h'
            · omega

/-- C37, the rejection loop ends: away from time zero there is a bound on the number of trials,
depending only on the first step and the time, whatever the error estimates.
Missing: time zero in exact arithmetic, see `C37_refuted_at_zero`. -/
theorem C37_rejections_end_partial (eps T h : ℝ) (heps : 0 < eps) (hT : T ≠ 0) :
    ∃ K, ∀ (err : ℝ → Err) (c : Ctl) (fuel : Nat), K ≤ fuel →
      stepLoop id Par.default eps T err fuel h c ≠ .fuel := by
  have hpos : 0 < |T| * eps := mul_pos (abs_pos.2 hT) heps
  obtain ⟨K, hK⟩ : ∃ K : Nat, |h| * (9 / 10) ^ K ≤ |T| * eps := by
    rcases eq_or_ne h 0 with rfl | hh
    · exact ⟨0, by simpa using le_of_lt hpos⟩
    · obtain ⟨K, hK⟩ := exists_pow_lt_of_lt_one (show 0 < |T| * eps / |h| from div_pos hpos (abs_pos.2 hh))
        (show (9 / 10 : ℝ) < 1 by norm_num)
      refine ⟨K, ?_⟩
      have := (lt_div_iff₀ (abs_pos.2 hh)).1 hK
      linarith [mul_comm (|h|) ((9 / 10 : ℝ) ^ K)]
  have hK1 : |h| * (9 / 10) ^ (K + 1) ≤ |T| * eps := by
    refine le_trans ?_ hK
    rw [pow_succ]
    have : 0 ≤ |h| * (9 / 10) ^ K := by positivity
    nlinarith
  refine ⟨K + 1, ?_⟩
  intro err c fuel hf
  obtain ⟨extra, rfl⟩ := Nat.exists_eq_add_of_le hf
  rcases loop_ends eps T err (K + 1) h c hK1 extra (by omega) with h' | h'
  · exact h'
  · omega

/-- Multiplication that flushes results below `eta` to zero. -/
def flushing (eta : ℝ) : ℝ → ℝ := fun x => if |x| < eta then 0 else x

/-- C37 with underflow to zero (as on a machine flushing tiny results to zero): the loop ends at
every time, including zero. -/
theorem C37_rejections_end_flushing (eta eps T h : ℝ) (heta : 0 < eta) (heps : 0 ≤ eps) :
    ∃ K, ∀ (err : ℝ → Err) (c : Ctl) (fuel : Nat), K ≤ fuel →
      stepLoop (flushing eta) Par.default eps T err fuel h c ≠ .fuel := by
  -- a rejected step is that of exact arithmetic, flushed
  have hrel : ∀ (c : Ctl) (h : ℝ) (e : Err),
      (updateTimestep (flushing eta) Par.default c h e).1 = (updateTimestep id Par.default c h e).1 ∧
      (updateTimestep (flushing eta) Par.default c h e).2.optimal =
        flushing eta (updateTimestep id Par.default c h e).2.optimal := by
    intro c h e
    cases e with
    | nan => exact ⟨rfl, rfl⟩
    | inf => exact ⟨rfl, rfl⟩
    | val e => by_cases he : e ≤ 1 <;> simp [updateTimestep, he]
  have key : ∀ (fuel : Nat) (h : ℝ) (c : Ctl) (err : ℝ → Err), |h| * (9 / 10) ^ fuel < eta →
      ∀ extra, stepLoop (flushing eta) Par.default eps T err (fuel + 1 + extra) h c ≠ .fuel := by
    intro fuel
    induction fuel with
    | zero =>
      intro h c err hb extra
      rw [show 0 + 1 + extra = extra + 1 from by omega, stepLoop]
      cases hu : updateTimestep (flushing eta) Par.default c h (err h) with
      | mk b c1 =>
        cases b with
        | true => simp
        | false =>
          simp only
          have e1 := (hrel c h (err h)).1
          have e2 := (hrel c h (err h)).2
          rw [hu] at e1 e2
          obtain ⟨r, h1, h2, h3⟩ := C36_rejected_shrinks c h (err h) e1.symm
          have : c1.optimal = 0 := by
            show c1.optimal = 0
            have e2' : c1.optimal = flushing eta (updateTimestep id Par.default c h (err h)).2.optimal := e2
            rw [e2', h1, flushing, if_pos]
            rw [abs_mul, abs_of_nonneg (by linarith : 0 ≤ r)]
            simp only [pow_zero, mul_one] at hb
            have := mul_le_mul_of_nonneg_left h3 (abs_nonneg h)
            have h0 := abs_nonneg h
            linarith
          rw [if_pos]
          · simp
          · rw [this, abs_zero]
            positivity
    | succ k ih =>
      intro h c err hb extra
      rw [show k + 1 + 1 + extra = (k + 1 + extra) + 1 from by omega, stepLoop]
      cases hu : updateTimestep (flushing eta) Par.default c h (err h) with
      | mk b c1 =>
        cases b with
        | true => simp
        | false =>
          simp only
          have e1 := (hrel c h (err h)).1
          have e2 : c1.optimal = flushing eta (updateTimestep id Par.default c h (err h)).2.optimal := by
            have := (hrel c h (err h)).2
            rw [hu] at this
            exact this
          rw [hu] at e1
          obtain ⟨r, h1, h2, h3⟩ := C36_rejected_shrinks c h (err h) e1.symm
          split
          · simp
          · apply ih
            have habs : |c1.optimal| ≤ |h| * (9 / 10) := by
              have hle : |h * r| ≤ |h| * (9 / 10) := by
                rw [abs_mul, abs_of_nonneg (by linarith : 0 ≤ r)]
                exact mul_le_mul_of_nonneg_left h3 (abs_nonneg h)
              rw [e2, h1, flushing]
              split
              · rw [abs_zero]; positivity
              · exact hle
            calc |c1.optimal| * (9 / 10) ^ k ≤ |h| * (9 / 10) * (9 / 10) ^ k :=
                  mul_le_mul_of_nonneg_right habs (by positivity)
              _ = |h| * (9 / 10) ^ (k + 1) := by rw [pow_succ]; ring
              _ < eta := hb
  obtain ⟨K, hK⟩ : ∃ K : Nat, |h| * (9 / 10) ^ K < eta := by
    rcases eq_or_ne h 0 with rfl | hh
    · exact ⟨0, by simpa using heta⟩
    · obtain ⟨K, hK⟩ := exists_pow_lt_of_lt_one (show 0 < eta / |h| from div_pos heta (abs_pos.2 hh))
        (show (9 / 10 : ℝ) < 1 by norm_num)
      refine ⟨K, ?_⟩
      have := (lt_div_iff₀ (abs_pos.2 hh)).1 hK
      linarith [mul_comm (|h|) ((9 / 10 : ℝ) ^ K)]
  refine ⟨K + 1, ?_⟩
  intro err c fuel hf
  obtain ⟨extra, rfl⟩ := Nat.exists_eq_add_of_le hf
  exact key K h c err hK extra

/-- C37 as stated is refuted in exact arithmetic: at time zero the underflow check compares with
zero, so an equation whose error estimate is always NaN is retried for ever. -/
theorem C37_refuted_at_zero (eps : ℝ) (fuel : Nat) :
    stepLoop id Par.default eps 0 (fun _ => .nan) fuel 1 Ctl.init = .fuel := by
  have key : ∀ (fuel : Nat) (h : ℝ) (c : Ctl), 0 < h →
      stepLoop id Par.default eps 0 (fun _ => .nan) fuel h c = .fuel := by
    intro fuel
    induction fuel with
    | zero => intro h c _; rfl
    | succ k ih =>
      intro h c hh
      rw [stepLoop]
      simp only [updateTimestep, id, abs_zero, zero_mul]
      rw [if_neg (by rw [abs_nonpos_iff]; positivity)]
      exact ih _ _ (by positivity)
  exact key fuel 1 Ctl.init one_pos

/-- Control state after `k` accepted steps that all had error estimate one. -/
def ones : Nat → ℝ × Ctl
  | 0 => (0, Ctl.init)
  | k + 1 =>
    let q := ones k
    (q.1 + q.2.optimal, (updateTimestep id Par.default q.2 q.2.optimal (.val 1)).2)

theorem ones_eq : ∀ k, (ones k).1 = 10 * (1 - (9 / 10) ^ k) ∧ (ones k).2.optimal = (9 / 10) ^ k ∧
    (ones k).2.rejected = false := by
  intro k
  induction k with
  | zero => simp [ones, Ctl.init]
  | succ k ih =>
    obtain ⟨h1, h2, h3⟩ := ih
    refine ⟨?_, ?_, ?_⟩
    · simp only [ones, h1, h2, pow_succ]; ring
    · simp only [ones]
      simp only [updateTimestep, h2, h3, id, Par.default, le_refl, if_true, Real.one_rpow, mul_one, Real.rpow_zero]
      norm_num
      rw [pow_succ]
    · simp [ones, updateTimestep]

/-- C37, the underflow check does not cover the first trial of a step: for every machine
precision there is a reachable state (steps accepted with error estimate one) whose next trial
is below the threshold and accepted without complaint; in floating-point arithmetic the time
then stands still. -/
theorem C37_refuted_unchecked (eps : ℝ) (heps : 0 < eps) :
    ∃ k, |(ones k).2.optimal| ≤ |(ones k).1| * eps ∧ 0 < (ones k).2.optimal ∧
      ∃ c', stepLoop id Par.default eps (ones k).1 (fun _ => .val 1) 1 (ones k).2.optimal (ones k).2 =
        .accepted (ones k).2.optimal c' := by
  obtain ⟨k, hk⟩ := exists_pow_lt_of_lt_one (show 0 < min eps (1 / 2) from lt_min heps (by norm_num))
    (show (9 / 10 : ℝ) < 1 by norm_num)
  obtain ⟨h1, h2, h3⟩ := ones_eq k
  have hk1 := lt_of_lt_of_le hk (min_le_left _ _)
  have hk2 := lt_of_lt_of_le hk (min_le_right _ _)
  have hp : (0 : ℝ) < (9 / 10) ^ k := by positivity
  refine ⟨k, ?_, ?_, ?_⟩
  · rw [h1, h2, abs_of_pos hp, abs_of_pos (by linarith)]
    nlinarith
  · rw [h2]; exact hp
  · simp [stepLoop, updateTimestep]

/-- A loop with two rejections that ends in acceptance. -/
example : stepLoop id Par.default 1 0 (fun h => if h > 1 / 50 then .nan else .val 0) 5 1 Ctl.init =
    .accepted (1 / 100) ⟨1 / 100, 1 / 10000, false⟩ := by
  simp only [stepLoop]
  norm_num [updateTimestep, Ctl.init, Par.default]

/-! ### C39 -/

/-- C39: for two or more points on a proper interval: `nt` times, first `tmin`, last exactly
`tmax`, equally spaced, strictly increasing. -/
theorem C39_uniform_times (nt : Nat) (tmin tmax : ℝ) (hn : 2 ≤ nt) (ht : tmin < tmax) :
    ∃ ts, uniformTimes nt tmin tmax = some ts ∧ ts.length = nt ∧ ts[0]? = some tmin ∧
      ts[nt - 1]? = some tmax ∧
      (∀ (i : Nat), i < nt → ts[i]? = some (tmin + i * ((tmax - tmin) / ((nt : ℝ) - 1)))) ∧
      (∀ (i j : Nat) (a b : ℝ), i < j → ts[i]? = some a → ts[j]? = some b → a < b) := by
  have hpos : (0 : ℝ) < (nt : ℝ) - 1 := by
    have : (2 : ℝ) ≤ nt := by exact_mod_cast hn
    linarith
  have hdt : 0 < (tmax - tmin) / ((nt : ℝ) - 1) := div_pos (by linarith) hpos
  have hall : ∀ (i : Nat), i < nt →
      (((List.range nt).map (fun i : Nat => tmin + i * ((tmax - tmin) / ((nt : ℝ) - 1)))).set (nt - 1) tmax)[i]? =
        some (tmin + i * ((tmax - tmin) / ((nt : ℝ) - 1))) := by
    intro i hi
    rw [List.getElem?_set]
    split
    · rename_i he
      rw [if_pos (by simp; omega)]
      congr 1
      have : (i : ℝ) = (nt : ℝ) - 1 := by
        rw [← he, Nat.cast_sub (by omega)]; simp
      rw [this]
      field_simp
      ring
    · rw [List.getElem?_map, List.getElem?_range hi]
      rfl
  refine ⟨_, by rw [uniformTimes, if_pos (by omega)], ?_, ?_, ?_, hall, ?_⟩
  · simp
  · rw [hall 0 (by omega)]; simp
  · rw [List.getElem?_set_self (by simp; omega)]
  · intro i j a b hij ha hb
    have hj : j < nt := by
      by_contra hc
      rw [List.getElem?_eq_none (by simp; omega)] at hb
      cases hb
    rw [hall i (by omega)] at ha
    rw [hall j hj] at hb
    simp only [Option.some.injEq] at ha hb
    rw [← ha, ← hb]
    have : (i : ℝ) < j := by exact_mod_cast hij
    nlinarith

/-- C39, the remaining cases: no points are rejected; one point requires an interval of length
zero. -/
theorem C39_degenerate (tmin tmax : ℝ) :
    uniformTimes 0 tmin tmax = none ∧
    (tmin = tmax → uniformTimes 1 tmin tmax = some [tmax]) ∧
    (tmin ≠ tmax → uniformTimes 1 tmin tmax = none) := by
  refine ⟨by simp [uniformTimes], fun h => ?_, fun h => ?_⟩
  · simp [uniformTimes, h]
  · simp [uniformTimes, h]

example : uniformTimes 3 1 2 = some [1, 3 / 2, 2] := by
  simp [uniformTimes, List.range_succ]
  norm_num

end

end Softlib
