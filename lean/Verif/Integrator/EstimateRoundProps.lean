/-
C139: the error estimate in floating point.
-/
import Verif.General.WithinProps
import Verif.Integrator.EstimateRoundModel
import Verif.Integrator.ErrorProps
import Verif.General.RoundEval

namespace Softlib
open Softlib.Integrator Softlib.General

noncomputable section

/-- The library's root is accurate up to a factor S. -/
def AccurateRoot (sq : ℚ → ℚ) (S : ℝ) : Prop := ∀ a : ℚ, 0 ≤ a → WithinF S (sq a : ℝ) (Real.sqrt a)

theorem within_nonneg {G x' x : ℝ} (h : WithinF G x' x) (hx : 0 ≤ x) : 0 ≤ x' := by
  obtain ⟨g, θ, rfl, h1, -⟩ := h
  have : 0 < G⁻¹ := inv_pos.2 (by linarith)
  exact mul_nonneg (by linarith) hx

theorem within_le {G x' x : ℝ} (h : WithinF G x' x) (hx : 0 ≤ x) : x' ≤ G * x ∧ x ≤ G * x' := by
  obtain ⟨g, θ, rfl, h1, h2⟩ := h
  refine ⟨mul_le_mul_of_nonneg_right h2 hx, ?_⟩
  have : 1 ≤ G * θ := by
    have := mul_le_mul_of_nonneg_left h1 (show 0 ≤ G by linarith)
    rwa [mul_inv_cancel₀ (by linarith)] at this
  nlinarith

/-- The rounded tolerance. -/
theorem tol_within {u : ℚ} (R : Rnd u) (hu : u < 1) {atol rtol : ℚ} (ha : 0 ≤ atol) (hr : 0 ≤ rtol) (a b : ℚ) :
    WithinF (unitFactorR u ^ 2) (tolR R atol rtol a b : ℝ) (tolOf atol rtol a b) := by
  have h1 := fl_within R hu (rtol * max |a| |b|)
  have h0 : (0 : ℝ) ≤ ((rtol * max |a| |b| : ℚ) : ℝ) := by
    have : 0 ≤ rtol * max |a| |b| := mul_nonneg hr (le_max_of_le_left (abs_nonneg _))
    exact_mod_cast this
  have h2 := within_add_pos (within_mono (within_refl (atol : ℝ)) h1.1) h1 (by exact_mod_cast ha) h0
  have h3 := within_fl R hu (x' := atol + R.fl (rtol * max |a| |b|)) (by push_cast; push_cast at h2; exact h2)
  rw [← sq] at h3
  exact h3

/-- A term of the sum, if the tolerance is not zero. -/
theorem term_within {u : ℚ} (R : Rnd u) (hu : u < 1) {atol rtol : ℚ} (ha : 0 ≤ atol) (hr : 0 ≤ rtol) (e a b : ℚ) :
    WithinF (unitFactorR u ^ 7) (R.fl (R.fl (e / tolR R atol rtol a b) * R.fl (e / tolR R atol rtol a b)) : ℝ)
      ((e / tolOf atol rtol a b) ^ 2) := by
  have h1 := within_div (within_refl (e : ℝ)) (tol_within R hu ha hr a b)
  have h2 := within_fl R hu (x' := e / tolR R atol rtol a b) (by push_cast; exact h1)
  have h3 := within_mul h2 h2
  have h4 := within_fl R hu (x' := R.fl (e / tolR R atol rtol a b) * R.fl (e / tolR R atol rtol a b)) (by push_cast; exact h3)
  rw [show 1 * unitFactorR u ^ 2 * unitFactorR u * (1 * unitFactorR u ^ 2 * unitFactorR u) * unitFactorR u = unitFactorR u ^ 7 by ring] at h4
  rw [sq]
  exact h4

/-- A rounded estimate and an exact one: both NaN, both infinite, or numbers that differ by a factor. -/
def ErrNear (K : ℝ) : ErrR → Err → Prop
  | .nan, .nan => True
  | .inf, .inf => True
  | .val a, .val b => WithinF K (a : ℝ) b ∧ 0 ≤ b
  | _, _ => False

theorem errTerm_near {u : ℚ} (R : Rnd u) (hu : u < 1) {atol rtol : ℚ} (ha : 0 ≤ atol) (hr : 0 ≤ rtol) (e a b : ℚ) :
    ErrNear (unitFactorR u ^ 7) (errTermR R atol rtol e a b) (errTerm atol rtol e a b) := by
  have hz := within_eq_zero (tol_within R hu ha hr a b)
  have ht := term_within R hu ha hr e a b
  have e1 : (tolR R atol rtol a b = 0) ↔ ((atol : ℝ) + rtol * max |(a : ℝ)| |(b : ℝ)| = 0) := by
    rw [← show tolOf atol rtol a b = (atol : ℝ) + rtol * max |(a : ℝ)| |(b : ℝ)| from rfl, ← hz]
    norm_cast
  have e2 : e = 0 ↔ (e : ℝ) = 0 := by norm_cast
  unfold errTermR errTerm
  dsimp only
  by_cases h : tolR R atol rtol a b = 0
  · rw [if_pos h, if_pos (e1.1 h)]
    by_cases h' : e = 0
    · rw [if_pos h', if_pos (e2.1 h')]; trivial
    · rw [if_neg h', if_neg (fun h => h' (e2.2 h))]; trivial
  · rw [if_neg h, if_neg (fun h' => h (e1.2 h'))]
    refine ⟨?_, mul_self_nonneg _⟩
    rw [sq] at ht
    exact ht

theorem errNear_mono {G K : ℝ} (h : G ≤ K) {a : ErrR} {b : Err} (hn : ErrNear G a b) : ErrNear K a b := by
  cases a <;> cases b <;> first | exact hn | exact ⟨within_mono hn.1 h, hn.2⟩

theorem errAdd_near {u : ℚ} (R : Rnd u) (hu : u < 1) {G : ℝ} {a c : ErrR} {b d : Err} (h : ErrNear G a b) (k : ErrNear G c d) :
    ErrNear (G * unitFactorR u) (errAddR R a c) (errAdd b d) := by
  cases a <;> cases b <;> cases c <;> cases d <;> first | exact h.elim | exact k.elim | exact trivial | skip
  rename_i x x' y y'
  exact ⟨within_fl R hu (x' := x + y) (by push_cast; exact within_add_pos h.1 k.1 h.2 k.2), add_nonneg h.2 k.2⟩

theorem errSum_near {u : ℚ} (R : Rnd u) (hu : u < 1) {G : ℝ} (hG : 1 ≤ G) {t : ℕ → ErrR} {v : ℕ → Err} :
    ∀ n, (∀ i, i < n → ErrNear G (t i) (v i)) → ErrNear (G * unitFactorR u ^ n) (errSumR R n t) (errSum n v) := by
  have hE : 1 ≤ unitFactorR u := (fl_within R hu 1).1
  intro n
  induction n with
  | zero =>
    intro _
    refine ⟨?_, le_refl _⟩
    rw [pow_zero, mul_one, Rat.cast_zero]
    exact within_mono (within_refl 0) hG
  | succ n ih =>
    intro h
    rw [pow_succ, ← mul_assoc]
    exact errAdd_near R hu (ih fun i hi => h i (by omega))
      (errNear_mono (le_mul_of_one_le_right (by linarith) (one_le_pow₀ hE)) (h n (by omega)))

/-- The factor by which the rounded estimate may be wrong. -/
def estimateFactor (u : ℚ) (S : ℝ) (N : ℕ) : ℝ := S * unitFactorR u ^ (N + 8)

/-- **C139** The rounded error estimate is a number, infinite or NaN as the exact one is, and as a number it is wrong by at most a factor: one rounding
for each component and eight more, and the root. -/
theorem C139_estimate {u : ℚ} (R : Rnd u) (hu : u < 1) {sq : ℚ → ℚ} {S : ℝ} (hS : AccurateRoot sq S) {atol rtol : ℚ} (ha : 0 ≤ atol) (hr : 0 ≤ rtol)
    (N : ℕ) (yerr y1 y2 : ℕ → ℚ) :
    ErrNear (estimateFactor u S N) (estimateR R sq N atol rtol yerr y1 y2)
      (estimateError N atol rtol (fun i => yerr i) (fun i => y1 i) (fun i => y2 i)) := by
  have hE : 1 ≤ unitFactorR u := (fl_within R hu 1).1
  have h := errSum_near R hu (one_le_pow₀ hE : 1 ≤ unitFactorR u ^ 7) N
    (fun i _ => errTerm_near R hu ha hr (yerr i) (y1 i) (y2 i))
  unfold estimateR estimateError
  revert h
  cases errSumR R N (fun i => errTermR R atol rtol (yerr i) (y1 i) (y2 i)) <;>
    cases errSum N (fun i => errTerm (atol : ℝ) rtol (yerr i) (y1 i) (y2 i)) <;> intro h <;> first | exact h.elim | exact trivial | skip
  rename_i a b
  dsimp only
  by_cases h0 : N = 0
  · rw [if_pos h0, if_pos h0]; trivial
  · rw [if_neg h0, if_neg h0]
    have h1 := within_div h.1 (within_refl (N : ℝ))
    have h2 := within_fl R hu (x' := a / N) (by push_cast; exact h1)
    have hn : 0 ≤ (R.fl (a / N) : ℝ) := within_nonneg h2 (div_nonneg h.2 (Nat.cast_nonneg _))
    have h3 := within_trans (hS (R.fl (a / N)) (by exact_mod_cast hn)) (within_sqrt h2)
    refine ⟨?_, Real.sqrt_nonneg _⟩
    rw [estimateFactor]
    rwa [show unitFactorR u ^ 7 * unitFactorR u ^ N * 1 * unitFactorR u * S = S * unitFactorR u ^ (N + 8) by ring] at h3

/-- The exact scaled error of a step: the root of the mean square of error over tolerance. -/
def scaledError (N : ℕ) (atol rtol : ℚ) (yerr y1 y2 : ℕ → ℚ) : ℝ :=
  Real.sqrt ((∑ i ∈ Finset.range N, ((yerr i : ℝ) / tolOf atol rtol (y1 i) (y2 i)) ^ 2) / N)

/-- **C139** An estimate of at most 1 means that the scaled error is at most the factor, and that every component has a tolerance. -/
theorem C139_accepted {u : ℚ} (R : Rnd u) (hu : u < 1) {sq : ℚ → ℚ} {S : ℝ} (hS : AccurateRoot sq S) {atol rtol : ℚ} (ha : 0 ≤ atol) (hr : 0 ≤ rtol)
    {N : ℕ} {yerr y1 y2 : ℕ → ℚ} {e : ℚ} (h : estimateR R sq N atol rtol yerr y1 y2 = .val e) (he : e ≤ 1) :
    0 < N ∧ (∀ i, i < N → 0 < tolOf atol rtol (y1 i) (y2 i)) ∧ scaledError N atol rtol yerr y1 y2 ≤ estimateFactor u S N := by
  have hn := C139_estimate R hu hS ha hr N yerr y1 y2
  rw [h] at hn
  cases hx : estimateError N atol rtol (fun i => yerr i) (fun i => y1 i) (fun i => y2 i) with
  | nan => rw [hx] at hn; exact hn.elim
  | inf => rw [hx] at hn; exact hn.elim
  | val v =>
    rw [hx] at hn
    have hN : 0 < N := by
      rcases Nat.eq_zero_or_pos N with h0 | h0
      · have := (C90_nan_iff N atol rtol (fun i => yerr i) (fun i => y1 i) (fun i => y2 i)).2 (Or.inl h0)
        rw [hx] at this
        cases this
      · exact h0
    have ht := (C90_number_iff N hN atol rtol (fun i => yerr i) (fun i => y1 i) (fun i => y2 i)).1 ⟨v, hx⟩
    have ht0 : ∀ i, i < N → 0 < tolOf atol rtol (y1 i) (y2 i) := by
      intro i hi
      refine lt_of_le_of_ne ?_ (Ne.symm (ht i hi))
      have h1 : (0 : ℝ) ≤ atol := by exact_mod_cast ha
      have h2 : (0 : ℝ) ≤ rtol := by exact_mod_cast hr
      unfold tolOf
      positivity
    refine ⟨hN, ht0, ?_⟩
    have hv := C90_estimate N hN atol rtol (fun i => yerr i) (fun i => y1 i) (fun i => y2 i) ht
    rw [hx] at hv
    injection hv with hv
    rw [scaledError, ← hv]
    have he' : (e : ℝ) ≤ 1 := by exact_mod_cast he
    have hK : 0 ≤ estimateFactor u S N := by linarith [hn.1.1]
    exact le_trans (within_le hn.1 hn.2).2 (by nlinarith)

/-- **C139** Each component of an accepted step. -/
theorem C139_component {u : ℚ} (R : Rnd u) (hu : u < 1) {sq : ℚ → ℚ} {S : ℝ} (hS : AccurateRoot sq S) {atol rtol : ℚ} (ha : 0 ≤ atol) (hr : 0 ≤ rtol)
    {N : ℕ} {yerr y1 y2 : ℕ → ℚ} {e : ℚ} (h : estimateR R sq N atol rtol yerr y1 y2 = .val e) (he : e ≤ 1) (i : ℕ) (hi : i < N) :
    |(yerr i : ℝ)| ≤ Real.sqrt N * estimateFactor u S N * tolOf atol rtol (y1 i) (y2 i) := by
  obtain ⟨hN, ht, hs⟩ := C139_accepted R hu hS ha hr h he
  have hNr : (0 : ℝ) < N := by exact_mod_cast hN
  have h1 : ((yerr i : ℝ) / tolOf atol rtol (y1 i) (y2 i)) ^ 2 ≤ ∑ j ∈ Finset.range N, ((yerr j : ℝ) / tolOf atol rtol (y1 j) (y2 j)) ^ 2 :=
    Finset.single_le_sum (f := fun j => ((yerr j : ℝ) / tolOf atol rtol (y1 j) (y2 j)) ^ 2) (fun j _ => sq_nonneg _) (Finset.mem_range.2 hi)
  have h2 : |(yerr i : ℝ) / tolOf atol rtol (y1 i) (y2 i)| ≤ Real.sqrt N * scaledError N atol rtol yerr y1 y2 := by
    rw [scaledError, ← Real.sqrt_mul hNr.le, mul_div_cancel₀ _ hNr.ne', ← Real.sqrt_sq_eq_abs]
    exact Real.sqrt_le_sqrt h1
  have h3 := le_trans h2 (mul_le_mul_of_nonneg_left hs (Real.sqrt_nonneg _))
  rwa [abs_div, abs_of_pos (ht i hi), div_le_iff₀ (ht i hi)] at h3

/-- **C139** A step with a scaled error of at most one over the factor is accepted. -/
theorem C139_accepts {u : ℚ} (R : Rnd u) (hu : u < 1) {sq : ℚ → ℚ} {S : ℝ} (hS : AccurateRoot sq S) {atol rtol : ℚ} (ha : 0 ≤ atol) (hr : 0 ≤ rtol)
    {N : ℕ} (hN : 0 < N) {yerr y1 y2 : ℕ → ℚ} (ht : ∀ i, i < N → 0 < tolOf atol rtol (y1 i) (y2 i))
    (h : estimateFactor u S N * scaledError N atol rtol yerr y1 y2 ≤ 1) :
    ∃ e, estimateR R sq N atol rtol yerr y1 y2 = .val e ∧ e ≤ 1 := by
  have hn := C139_estimate R hu hS ha hr N yerr y1 y2
  rw [C90_estimate N hN atol rtol (fun i => yerr i) (fun i => y1 i) (fun i => y2 i) (fun i hi => (ht i hi).ne')] at hn
  cases hx : estimateR R sq N atol rtol yerr y1 y2 with
  | nan => rw [hx] at hn; exact hn.elim
  | inf => rw [hx] at hn; exact hn.elim
  | val e =>
    rw [hx] at hn
    refine ⟨e, rfl, ?_⟩
    have := le_trans (within_le hn.1 hn.2).1 h
    exact_mod_cast this

/-- **C139** With a correctly rounded root the factor is 1 up to 2 (N + 9) units of rounding. -/
theorem C139_factor {u : ℚ} (R : Rnd u) (hu : u < 1) (N : ℕ) (hN : 2 * ((N + 9 : ℕ) : ℚ) * u ≤ 1) :
    estimateFactor u (unitFactorR u) N ≤ 1 + 2 * (N + 9) * (u : ℝ) := by
  have := unitFactor_pow R hu (N + 9) hN
  rw [estimateFactor, ← pow_succ']
  push_cast at this
  linarith

/-! ### integrations -/

/-- Every step of a history came from a trial step with an estimate of at most 1. -/
def StepsAccepted {u : ℚ} (R : Rnd u) (trial : ℚ → ℚ → (ℕ → ℚ) → (ℕ → ℚ) → TrialR) (s : HistR) : Prop :=
  1 ≤ s.n ∧ ∀ j, j + 1 < s.n → ∃ h e, s.time (j + 1) = R.fl (s.time j + h) ∧ s.y (j + 1) = (trial (s.time j) h (s.y j) (s.dy j)).yout ∧
    s.dy (j + 1) = (trial (s.time j) h (s.y j) (s.dy j)).dydxout ∧ (trial (s.time j) h (s.y j) (s.dy j)).err = .val e ∧ e ≤ 1

theorem update_accepts {u : ℚ} (R : Rnd u) (pw : ℚ → ℚ → ℚ) (p : ParR) (c c' : CtlR) (h : ℚ) (er : ErrR) (hx : updateR R pw p c h er = (true, c')) :
    ∃ e, er = .val e ∧ e ≤ 1 := by
  cases er with
  | nan => simp [updateR] at hx
  | inf => simp [updateR] at hx
  | val e =>
    refine ⟨e, rfl, ?_⟩
    by_contra hne
    simp only [updateR, if_neg hne, Prod.mk.injEq, Bool.false_eq_true, false_and] at hx

theorem loopR_accepts {u : ℚ} (R : Rnd u) (pw : ℚ → ℚ → ℚ) (p : ParR) (eps T : ℚ) (err : ℚ → ErrR) :
    ∀ fuel h c h' c', stepLoopR R pw p eps T err fuel h c = .accepted h' c' → ∃ e, err h' = .val e ∧ e ≤ 1 := by
  intro fuel
  induction fuel with
  | zero => intro h c h' c' hx; cases hx
  | succ k ih =>
    intro h c h' c' hx
    rw [stepLoopR] at hx
    cases hup : updateR R pw p c h (err h) with
    | mk b c1 =>
      rw [hup] at hx
      cases b with
      | true =>
        simp only [LoopResR.accepted.injEq] at hx
        obtain ⟨rfl, rfl⟩ := hx
        exact update_accepts R pw p c c1 h _ hup
      | false =>
        dsimp only at hx
        split_ifs at hx
        exact ih _ _ _ _ hx

theorem stepsAccepted_step {u : ℚ} (R : Rnd u) (pw : ℚ → ℚ → ℚ) (p : ParR) (eps : ℚ) (trial : ℚ → ℚ → (ℕ → ℚ) → (ℕ → ℚ) → TrialR) (fuel : ℕ)
    {s s' : HistR} {c c' : CtlR} (hs : StepsAccepted R trial s) (h : rkStepR R pw p eps trial fuel s c = .ok s' c') :
    StepsAccepted R trial s' ∧ s'.n = s.n + 1 := by
  unfold rkStepR at h
  dsimp only at h
  cases hl : stepLoopR R pw p eps (s.time (s.n - 1)) (fun h => (trial (s.time (s.n - 1)) h (s.y (s.n - 1)) (s.dy (s.n - 1))).err) fuel c.optimal c with
  | fuel => rw [hl] at h; cases h
  | underflow => rw [hl] at h; cases h
  | accepted h' c1 =>
    rw [hl] at h
    simp only [StepResR.ok.injEq] at h
    obtain ⟨rfl, rfl⟩ := h
    obtain ⟨e, he, he1⟩ := loopR_accepts R pw p eps _ _ _ _ _ _ _ hl
    obtain ⟨h1, h2⟩ := hs
    refine ⟨⟨by simp [storeR], fun j hj => ?_⟩, rfl⟩
    have hj' : j < s.n := by simpa [storeR] using hj
    rcases Nat.lt_or_ge (j + 1) s.n with hlt | hge
    · obtain ⟨h'', e', a1, a2, a3, a4, a5⟩ := h2 j hlt
      refine ⟨h'', e', ?_⟩
      simp only [storeR, if_neg (show j + 1 ≠ s.n by omega), if_neg (show j ≠ s.n by omega)]
      exact ⟨a1, a2, a3, a4, a5⟩
    · obtain rfl : j = s.n - 1 := by omega
      refine ⟨h', e, ?_⟩
      simp only [storeR, if_pos (show s.n - 1 + 1 = s.n by omega), if_neg (show s.n - 1 ≠ s.n by omega)]
      exact ⟨trivial, trivial, trivial, he, he1⟩

theorem stepsAccepted_run {u : ℚ} (R : Rnd u) (pw : ℚ → ℚ → ℚ) (p : ParR) (eps : ℚ) (trial : ℚ → ℚ → (ℕ → ℚ) → (ℕ → ℚ) → TrialR) (fuel : ℕ) :
    ∀ k (s s' : HistR) (c c' : CtlR), StepsAccepted R trial s → rkRunR R pw p eps trial fuel k s c = .ok s' c' →
      StepsAccepted R trial s' ∧ s'.n = s.n + k := by
  intro k
  induction k with
  | zero =>
    intro s s' c c' hs h
    simp only [rkRunR, StepResR.ok.injEq] at h
    obtain ⟨rfl, rfl⟩ := h
    exact ⟨hs, rfl⟩
  | succ k ih =>
    intro s s' c c' hs h
    rw [rkRunR] at h
    cases hx : rkStepR R pw p eps trial fuel s c with
    | fuel => rw [hx] at h; cases h
    | underflow => rw [hx] at h; cases h
    | ok s1 c1 =>
      rw [hx] at h
      obtain ⟨a, b⟩ := stepsAccepted_step R pw p eps trial fuel hs hx
      obtain ⟨a', b'⟩ := ih _ _ _ _ a h
      exact ⟨a', by omega⟩

/-- **C139** Whole integrations in floating point: every stored step is one of the method whose computed error, scaled with the tolerances, is at most the
factor; whatever `pow`, the parameters and the equation. -/
theorem C139_run {u : ℚ} (R : Rnd u) (hu : u < 1) {sq : ℚ → ℚ} {S : ℝ} (hS : AccurateRoot sq S) {atol rtol : ℚ} (ha : 0 ≤ atol) (hr : 0 ≤ rtol)
    (pw : ℚ → ℚ → ℚ) (p : ParR) (eps : ℚ) (N : ℕ) (f : ℚ → (ℕ → ℚ) → ℕ → ℚ) (fuel k : ℕ) (y0 : ℕ → ℚ) (c0 : CtlR) (s : HistR) (c : CtlR)
    (h : rkRunR R pw p eps (dpTrialR R f (estimateR R sq N atol rtol)) fuel k (HistR.init y0 (f 0 y0)) c0 = .ok s c) :
    s.n = k + 1 ∧ ∀ j, j < k → ∃ h, s.time (j + 1) = R.fl (s.time j + h) ∧
      s.y (j + 1) = (dpInnerR R f (s.time j) h (s.y j) (s.dy j)).yout ∧
      s.dy (j + 1) = (dpInnerR R f (s.time j) h (s.y j) (s.dy j)).dydxout ∧
      (∀ i, i < N → 0 < tolOf atol rtol (s.y j i) (s.y (j + 1) i)) ∧
      scaledError N atol rtol (dpInnerR R f (s.time j) h (s.y j) (s.dy j)).yerr (s.y j) (s.y (j + 1)) ≤ estimateFactor u S N := by
  have h0 : StepsAccepted R (dpTrialR R f (estimateR R sq N atol rtol)) (HistR.init y0 (f 0 y0)) := by
    refine ⟨le_refl _, fun j hj => ?_⟩
    simp only [HistR.init] at hj
    omega
  obtain ⟨⟨-, h1⟩, h2⟩ := stepsAccepted_run R pw p eps _ fuel k _ _ _ _ h0 h
  have h2' : s.n = k + 1 := by rw [h2]; simp only [HistR.init]; omega
  refine ⟨h2', fun j hj => ?_⟩
  obtain ⟨h', e, a1, a2, a3, a4, a5⟩ := h1 j (by omega)
  obtain ⟨-, b1, b2⟩ := C139_accepted R hu hS ha hr (show estimateR R sq N atol rtol (dpInnerR R f (s.time j) h' (s.y j) (s.dy j)).yerr (s.y j)
    (dpInnerR R f (s.time j) h' (s.y j) (s.dy j)).yout = .val e from a4) a5
  have a2' : s.y (j + 1) = (dpInnerR R f (s.time j) h' (s.y j) (s.dy j)).yout := a2
  refine ⟨h', a1, a2', a3, ?_, ?_⟩
  · rw [a2']; exact b1
  · rw [a2']; exact b2

/-! ### the factor is needed -/

/-- **C139** The factor cannot be left out: in double precision a step is accepted whose scaled error is more than 1, with any root that
gives 1 for 1. -/
theorem C139_sharp (sq : ℚ → ℚ) (h1 : sq 1 = 1) :
    estimateR (rndBits 52) sq 1 (1 + 1 / 2 ^ 52) (1 / 2 ^ 53) (fun _ => 1 + 1 / 2 ^ 51) (fun _ => 1) (fun _ => 0) = .val 1 ∧
      1 < scaledError 1 (1 + 1 / 2 ^ 52) (1 / 2 ^ 53) (fun _ => 1 + 1 / 2 ^ 51) (fun _ => 1) (fun _ => 0) := by
  have e1 : (rndBits 52).fl (1 / 2 ^ 53) = 1 / 2 ^ 53 := by
    have := flBits_exact 52 (e := -53) (m := 1) (by norm_num)
    simpa [rndBits] using this
  have e2 : (rndBits 52).fl (1 + 1 / 2 ^ 52 + 1 / 2 ^ 53) = 1 + 1 / 2 ^ 51 := by
    show flBits 52 _ = _
    rw [flBits, lastExp, show Int.log 2 |(1 : ℚ) + 1 / 2 ^ 52 + 1 / 2 ^ 53| = 0 by
      rw [abs_of_pos (by norm_num)]
      refine le_antisymm ?_ ((Int.zpow_le_iff_le_log (by norm_num) (by norm_num)).1 (by norm_num))
      exact Int.lt_add_one_iff.1 ((Int.lt_zpow_iff_log_lt (by norm_num) (by norm_num)).1 (by norm_num))]
    rw [show (1 + 1 / 2 ^ 52 + 1 / 2 ^ 53 : ℚ) / 2 ^ ((0 : ℤ) - (52 : ℕ)) = 4503599627370497 + 1 / 2 by norm_num]
    rw [show rne (4503599627370497 + 1 / 2) = 4503599627370498 by
      unfold rne
      rw [show ⌊(4503599627370497 + 1 / 2 : ℚ)⌋ = 4503599627370497 by rw [Int.floor_eq_iff]; norm_num]
      norm_num]
    norm_num
  have e3 : (rndBits 52).fl 1 = 1 := by
    have := flBits_exact 52 (e := 0) (m := 1) (by norm_num)
    simpa [rndBits] using this
  have ht : tolR (rndBits 52) (1 + 1 / 2 ^ 52) (1 / 2 ^ 53) 1 0 = 1 + 1 / 2 ^ 51 := by
    unfold tolR
    rw [show (1 / 2 ^ 53 : ℚ) * max |1| |0| = 1 / 2 ^ 53 by norm_num, e1, e2]
  constructor
  · unfold estimateR
    simp only [errSumR, errTermR, ht]
    rw [if_neg (by norm_num), div_self (by norm_num), e3, one_mul, e3]
    simp only [errAddR, zero_add, e3]
    norm_num [e3, h1]
  · unfold scaledError tolOf
    rw [Finset.sum_range_one]
    refine Real.lt_sqrt_of_sq_lt ?_
    norm_num [abs_of_pos]

/-- The hypotheses of `C139_run` can be met: with a constant function every step is accepted. -/
example : (match rkRunR exactRnd (fun a _ => a) (ParR.default exactRnd) 0 (dpTrialR exactRnd (fun _ _ _ => 3) (estimateR exactRnd id 2 1 1)) 5 2
    (HistR.init (fun _ => 0) (fun _ => 3)) (CtlR.init exactRnd) with
  | .ok s _ => decide (s.n = 3 ∧ s.time 2 = 11 ∧ s.y 2 1 = 33)
  | _ => false) = true := by
  decide +kernel

/-- There are roots of any accuracy. -/
example {S : ℝ} (hS : 1 < S) : ∃ sq : ℚ → ℚ, AccurateRoot sq S := by
  choose g hg using fun a : ℚ => exists_near hS (Real.sqrt_nonneg (a : ℝ))
  exact ⟨g, fun a _ => hg a⟩

end

end Softlib
