/-
C157: what integrations make of growing, decaying and oscillating quantities.

Source: /repo/include/softlib/Integrator/RungeKutta.tcc 22-192, /repo/include/softlib/Integrator/RKDP45.tcc 16-41,
by the models of TableauModel.lean and ErrorModel.lean.
-/
import Verif.Integrator.ExactProps

namespace Softlib

open Softlib.Integrator

noncomputable section

/-- What a step of length `h` multiplies a solution of `y' = a y` with, as a function of `a h`. -/
def gainOf (x : ℝ) : ℝ := 1 + x + x ^ 2 / 2 + x ^ 3 / 6 + x ^ 4 / 24 + x ^ 5 / 120 + x ^ 6 / 600

/-- What a step multiplies the square of the amplitude of an oscillation with, as a function of `(ω h) ^ 2`. -/
def ampOf (u : ℝ) : ℝ := 1 - u ^ 3 / 1800 + u ^ 4 / 1600 - u ^ 5 / 14400 + u ^ 6 / 360000

/-- The equations `y' = a y`, for every component. -/
def growEq (N : ℕ) (a : ℝ) : ℝ → (Fin N → ℝ) → (Fin N → ℝ) := fun _ y => a • y

/-- The equations `x' = ω v`, `v' = - ω x`. -/
def swingEq (ω : ℝ) : ℝ → (Fin 2 → ℝ) → (Fin 2 → ℝ) := fun _ y => ![ω * y 1, -(ω * y 0)]

def swingMap (ω : ℝ) : (Fin 2 → ℝ) →ₗ[ℝ] (Fin 2 → ℝ) where
  toFun y := ![ω * y 1, -(ω * y 0)]
  map_add' y z := by funext i; fin_cases i <;> simp <;> ring
  map_smul' r y := by funext i; fin_cases i <;> simp <;> ring

/-- The square of the amplitude at a stored point. -/
def ampSq (s : Store) (k : ℕ) : ℝ := vecOf 2 (solutionAt 2 s k) 0 ^ 2 + vecOf 2 (solutionAt 2 s k) 1 ^ 2

/-- C157, `y' = a y`: every step multiplies by the gain. -/
theorem C157_gain {N : ℕ} (hN : 0 < N) (a atol rtol : ℝ) (y0 : Fin N → ℝ) (s : Store) (hr : DPRun (growEq N a) atol rtol y0 s) (k : ℕ)
    (hk : k + 1 < s.n) (i : Fin N) :
    vecOf N (solutionAt N s (k + 1)) i = gainOf (a * (timeAt s (k + 1) - timeAt s k)) * vecOf N (solutionAt N s k) i := by
  have h := C91_linear hN (a • LinearMap.id) atol rtol y0 s hr k hk
  simp only at h
  rw [h]
  simp [gainOf]
  ring

theorem gain_pos (x : ℝ) : 0 < gainOf x := by
  unfold gainOf
  nlinarith [sq_nonneg (x ^ 3 + 5 / 2 * x ^ 2), sq_nonneg (x * (x + 8 / 3)), sq_nonneg (x + 9 / 5)]

theorem gain_lt {x : ℝ} (h0 : 0 < x) (h1 : x ≤ 33 / 10) : gainOf (-x) < 1 := by
  have e : gainOf (-x) = 1 + x / 600 * (-600 + 300 * x - 100 * x ^ 2 + 25 * x ^ 3 - 5 * x ^ 4 + x ^ 5) := by unfold gainOf; ring
  have hS : 0 < x ^ 4 - 17 / 10 * x ^ 3 + 1939 / 100 * x ^ 2 - 36013 / 1000 * x + 1811571 / 10000 := by
    nlinarith [sq_nonneg (x * (x - 17 / 20)), sq_nonneg (x - 1)]
  have e2 : -600 + 300 * x - 100 * x ^ 2 + 25 * x ^ 3 - 5 * x ^ 4 + x ^ 5 =
      -(33 / 10 - x) * (x ^ 4 - 17 / 10 * x ^ 3 + 1939 / 100 * x ^ 2 - 36013 / 1000 * x + 1811571 / 10000) +
        (-600 + 33 / 10 * (1811571 / 10000)) := by ring
  have hneg : -600 + 300 * x - 100 * x ^ 2 + 25 * x ^ 3 - 5 * x ^ 4 + x ^ 5 < 0 := by
    rw [e2]
    have := mul_nonneg (sub_nonneg.2 h1) hS.le
    norm_num at this ⊢
    linarith
  rw [e]
  nlinarith [mul_pos h0 (neg_pos.2 hneg)]

theorem gain_gt {x : ℝ} (h1 : 34 / 10 ≤ x) : 1 < gainOf (-x) := by
  have e : gainOf (-x) = 1 + x / 600 * (-600 + 300 * x - 100 * x ^ 2 + 25 * x ^ 3 - 5 * x ^ 4 + x ^ 5) := by unfold gainOf; ring
  have hp : 0 < -600 + 300 * x - 100 * x ^ 2 + 25 * x ^ 3 - 5 * x ^ 4 + x ^ 5 := by
    obtain ⟨v, rfl⟩ : ∃ v, x = 34 / 10 + v := ⟨x - 34 / 10, by ring⟩
    have hv : 0 ≤ v := by linarith
    have : 0 ≤ v * (v ^ 4) := by positivity
    nlinarith [pow_nonneg hv 2, pow_nonneg hv 3, pow_nonneg hv 4, pow_nonneg hv 5]
  rw [e]
  nlinarith [mul_pos (show (0 : ℝ) < x by linarith) hp]

/-- C157: the sign of a growing or decaying quantity never changes, whatever the tolerance and the lengths of the steps. -/
theorem C157_sign {N : ℕ} (hN : 0 < N) (a atol rtol : ℝ) (y0 : Fin N → ℝ) (s : Store) (hr : DPRun (growEq N a) atol rtol y0 s) (k : ℕ)
    (hk : k < s.n) (i : Fin N) :
    (0 < vecOf N (solutionAt N s k) i ↔ 0 < y0 i) ∧ (vecOf N (solutionAt N s k) i = 0 ↔ y0 i = 0) := by
  obtain ⟨-, h0, hy, -, -⟩ := C90_accepted_steps hN _ atol rtol y0 s hr
  induction k with
  | zero => rw [hy]; exact ⟨Iff.rfl, Iff.rfl⟩
  | succ k ih =>
    obtain ⟨i1, i2⟩ := ih (by omega)
    rw [C157_gain hN a atol rtol y0 s hr k hk i]
    have hg := gain_pos (a * (timeAt s (k + 1) - timeAt s k))
    rw [mul_pos_iff_of_pos_left hg, mul_eq_zero, or_iff_right hg.ne']
    exact ⟨i1, i2⟩

/-- C157: a growing quantity grows with every step forward. -/
theorem C157_growth {N : ℕ} (hN : 0 < N) (a atol rtol : ℝ) (ha : 0 < a) (y0 : Fin N → ℝ) (s : Store) (hr : DPRun (growEq N a) atol rtol y0 s) (k : ℕ)
    (hk : k + 1 < s.n) (hf : timeAt s k < timeAt s (k + 1)) (i : Fin N) (hy : vecOf N (solutionAt N s k) i ≠ 0) :
    |vecOf N (solutionAt N s k) i| < |vecOf N (solutionAt N s (k + 1)) i| := by
  rw [C157_gain hN a atol rtol y0 s hr k hk i, abs_mul]
  have hx : 0 < a * (timeAt s (k + 1) - timeAt s k) := mul_pos ha (sub_pos.2 hf)
  have hg : 1 < gainOf (a * (timeAt s (k + 1) - timeAt s k)) := by
    generalize a * (timeAt s (k + 1) - timeAt s k) = x at hx
    unfold gainOf
    have : 0 < x ^ 2 / 2 + x ^ 3 / 6 + x ^ 4 / 24 + x ^ 5 / 120 + x ^ 6 / 600 := by positivity
    linarith
  have hp := abs_pos.2 hy
  nlinarith [le_abs_self (gainOf (a * (timeAt s (k + 1) - timeAt s k)))]

/-- C157: a decaying quantity decays with every step that is not longer than 3.3 times the time of the decay.
Missing: longer steps, see `C157_refuted_decay`. -/
theorem C157_decay_partial {N : ℕ} (hN : 0 < N) (a atol rtol : ℝ) (y0 : Fin N → ℝ) (s : Store) (hr : DPRun (growEq N (-a)) atol rtol y0 s) (k : ℕ)
    (hk : k + 1 < s.n) (hf : 0 < a * (timeAt s (k + 1) - timeAt s k)) (hl : a * (timeAt s (k + 1) - timeAt s k) ≤ 33 / 10) (i : Fin N)
    (hy : vecOf N (solutionAt N s k) i ≠ 0) :
    |vecOf N (solutionAt N s (k + 1)) i| < |vecOf N (solutionAt N s k) i| := by
  rw [C157_gain hN (-a) atol rtol y0 s hr k hk i, abs_mul, neg_mul, abs_of_pos (gain_pos _)]
  have hp := abs_pos.2 hy
  nlinarith [gain_lt hf hl]

/-- C157: and it grows with every accepted step that is longer than 3.4 times the time of the decay. -/
theorem C157_long_steps {N : ℕ} (hN : 0 < N) (a atol rtol : ℝ) (y0 : Fin N → ℝ) (s : Store) (hr : DPRun (growEq N (-a)) atol rtol y0 s) (k : ℕ)
    (hk : k + 1 < s.n) (hl : 34 / 10 ≤ a * (timeAt s (k + 1) - timeAt s k)) (i : Fin N) (hy : vecOf N (solutionAt N s k) i ≠ 0) :
    |vecOf N (solutionAt N s k) i| < |vecOf N (solutionAt N s (k + 1)) i| := by
  rw [C157_gain hN (-a) atol rtol y0 s hr k hk i, abs_mul, neg_mul, abs_of_pos (gain_pos _)]
  have hp := abs_pos.2 hy
  nlinarith [gain_gt hl]

/-- C157, oscillations: what a step does to the amplitude. -/
theorem C157_amplitude (ω atol rtol : ℝ) (y0 : Fin 2 → ℝ) (s : Store) (hr : DPRun (swingEq ω) atol rtol y0 s) (k : ℕ) (hk : k + 1 < s.n) :
    ampSq s (k + 1) = ampOf ((ω * (timeAt s (k + 1) - timeAt s k)) ^ 2) * ampSq s k := by
  have h := C91_linear (by norm_num) (swingMap ω) atol rtol y0 s hr k hk
  simp only at h
  unfold ampSq
  rw [h]
  generalize vecOf 2 (solutionAt 2 s k) = y
  generalize timeAt s (k + 1) - timeAt s k = d
  have w0 : ∀ z, swingMap ω z 0 = ω * z 1 := fun _ => rfl
  have w1 : ∀ z, swingMap ω z 1 = -(ω * z 0) := fun _ => rfl
  simp only [Pi.add_apply, Pi.smul_apply, smul_eq_mul, w0, w1, ampOf]
  ring

theorem amp_lt {u : ℝ} (h0 : 0 < u) (h1 : u ≤ 99 / 100) : ampOf u < 1 := by
  have e : ampOf u = 1 + u ^ 3 / 360000 * (-200 + 225 * u - 25 * u ^ 2 + u ^ 3) := by unfold ampOf; ring
  have hneg : -200 + 225 * u - 25 * u ^ 2 + u ^ 3 < 0 := by
    obtain ⟨v, rfl⟩ : ∃ v, u = 99 / 100 - v := ⟨99 / 100 - u, by ring⟩
    have hv : 0 ≤ v := by linarith
    nlinarith [pow_nonneg hv 2, pow_nonneg hv 3]
  rw [e]
  nlinarith [mul_pos (pow_pos h0 3) (neg_pos.2 hneg)]

theorem amp_gt {u : ℝ} (h1 : 1 ≤ u) : 1 < ampOf u := by
  have e : ampOf u = 1 + u ^ 3 / 360000 * (-200 + 225 * u - 25 * u ^ 2 + u ^ 3) := by unfold ampOf; ring
  have hp : 0 < -200 + 225 * u - 25 * u ^ 2 + u ^ 3 := by
    obtain ⟨v, rfl⟩ : ∃ v, u = 1 + v := ⟨u - 1, by ring⟩
    have hv : 0 ≤ v := by linarith
    nlinarith [mul_nonneg hv (sq_nonneg (v - 11))]
  rw [e]
  nlinarith [mul_pos (pow_pos (show (0 : ℝ) < u by linarith) 3) hp]

theorem amp_ge {u : ℝ} (h0 : 0 ≤ u) (h1 : u ≤ 1) : 1 - u ^ 3 / 1800 ≤ ampOf u := by
  have e : ampOf u = 1 - u ^ 3 / 1800 + u ^ 4 / 360000 * (225 - 25 * u + u ^ 2) := by unfold ampOf; ring
  rw [e]
  have : 0 ≤ u ^ 4 / 360000 * (225 - 25 * u + u ^ 2) := mul_nonneg (by positivity) (by nlinarith [sq_nonneg u])
  linarith

/-- C157, oscillations: the amplitude decreases with every step shorter than 0.99 divided by the angular frequency, and increases with
every step longer than 1 divided by it. -/
theorem C157_amplitude_changes (ω atol rtol : ℝ) (y0 : Fin 2 → ℝ) (s : Store) (hr : DPRun (swingEq ω) atol rtol y0 s) (k : ℕ) (hk : k + 1 < s.n)
    (hy : 0 < ampSq s k) :
    (0 < |ω * (timeAt s (k + 1) - timeAt s k)| → |ω * (timeAt s (k + 1) - timeAt s k)| ≤ 99 / 100 → ampSq s (k + 1) < ampSq s k) ∧
    (1 ≤ |ω * (timeAt s (k + 1) - timeAt s k)| → ampSq s k < ampSq s (k + 1)) := by
  rw [C157_amplitude ω atol rtol y0 s hr k hk, ← sq_abs (ω * _)]
  generalize |ω * (timeAt s (k + 1) - timeAt s k)| = x
  constructor
  · intro h0 h1
    nlinarith [amp_lt (u := x ^ 2) (by positivity) (by nlinarith)]
  · intro h1
    nlinarith [amp_gt (u := x ^ 2) (by nlinarith)]

/-- C157, oscillations: after any number of steps of at most `H` with `ω H ≤ 0.99`, the square of the amplitude is at most what it was at
the beginning, and it has lost at most the part `ω ^ 6 H ^ 5 t / 1800` up to the time `t`. -/
theorem C157_amplitude_bound_partial (ω atol rtol H : ℝ) (hω : 0 ≤ ω) (y0 : Fin 2 → ℝ) (s : Store) (hr : DPRun (swingEq ω) atol rtol y0 s)
    (hs : ∀ k, k + 1 < s.n → 0 ≤ timeAt s (k + 1) - timeAt s k ∧ timeAt s (k + 1) - timeAt s k ≤ H) (hH : ω * H ≤ 99 / 100) (k : ℕ) (hk : k < s.n) :
    ampSq s k ≤ y0 0 ^ 2 + y0 1 ^ 2 ∧ (1 - ω ^ 6 * H ^ 5 * timeAt s k / 1800) * (y0 0 ^ 2 + y0 1 ^ 2) ≤ ampSq s k := by
  obtain ⟨-, h0, hy, -, -⟩ := C90_accepted_steps (by norm_num) _ atol rtol y0 s hr
  induction k with
  | zero => rw [ampSq, hy, h0]; simp
  | succ k ih =>
    obtain ⟨i1, i2⟩ := ih (by omega)
    obtain ⟨d0, d1⟩ := hs k hk
    rw [C157_amplitude ω atol rtol y0 s hr k hk]
    have hA : 0 ≤ ampSq s k := by unfold ampSq; positivity
    have hT : timeAt s (k + 1) = timeAt s k + (timeAt s (k + 1) - timeAt s k) := by ring
    rw [hT, add_sub_cancel_left]
    generalize timeAt s (k + 1) - timeAt s k = d at *
    generalize timeAt s k = t at *
    generalize ampSq s k = A at *
    generalize y0 0 ^ 2 + y0 1 ^ 2 = A0 at *
    have hH0 : 0 ≤ H := le_trans d0 d1
    have hx0 : 0 ≤ ω * d := mul_nonneg hω d0
    have hx1 : ω * d ≤ 99 / 100 := le_trans (mul_le_mul_of_nonneg_left d1 hω) hH
    have hu : (ω * d) ^ 2 ≤ 99 / 100 := by nlinarith
    have hle : ampOf ((ω * d) ^ 2) ≤ 1 := by
      rcases eq_or_lt_of_le (sq_nonneg (ω * d)) with h | h
      · rw [← h]; norm_num [ampOf]
      · exact (amp_lt h hu).le
    have hge := amp_ge (sq_nonneg (ω * d)) (by linarith)
    have h6 : ((ω * d) ^ 2) ^ 3 ≤ ω ^ 6 * H ^ 5 * d := by
      have : d ^ 5 ≤ H ^ 5 := pow_le_pow_left₀ d0 d1 5
      have e : ((ω * d) ^ 2) ^ 3 = ω ^ 6 * d ^ 5 * d := by ring
      rw [e]
      exact mul_le_mul_of_nonneg_right (mul_le_mul_of_nonneg_left this (by positivity)) d0
    have hA0 : 0 ≤ A0 := le_trans hA i1
    refine ⟨by nlinarith, ?_⟩
    have h7 : A - ω ^ 6 * H ^ 5 * d / 1800 * A ≤ ampOf ((ω * d) ^ 2) * A := by
      have : 1 - ω ^ 6 * H ^ 5 * d / 1800 ≤ ampOf ((ω * d) ^ 2) := by linarith
      nlinarith
    have h8 : ω ^ 6 * H ^ 5 * d / 1800 * A ≤ ω ^ 6 * H ^ 5 * d / 1800 * A0 := mul_le_mul_of_nonneg_left i1 (by positivity)
    have e : (1 - ω ^ 6 * H ^ 5 * (t + d) / 1800) * A0 = (1 - ω ^ 6 * H ^ 5 * t / 1800) * A0 - ω ^ 6 * H ^ 5 * d / 1800 * A0 := by ring
    rw [e]
    linarith

/-- A run of one step of length 1, if the tolerance allows it. -/
theorem one_step_run {N : ℕ} (hN : 0 < N) (hN2 : 2 * N ≤ W) (f : ℝ → (Fin N → ℝ) → (Fin N → ℝ)) (atol : ℝ) (ha : 0 < atol) (y0 : Fin N → ℝ)
    (h : ∀ i, |(innerStep f 0 1 y0 (f 0 y0)).yerr i| ≤ atol) : ∃ s, DPRun f atol 0 y0 s ∧ s.n = 2 ∧ timeAt s 0 = 0 ∧ timeAt s 1 = 1 := by
  obtain ⟨s1, hs1, hn, hrun, hreach⟩ := start_run f atol 0 y0 (by omega)
  have hW : W = 4294967296 := rfl
  have hinv := hrun.inv
  have ht0 : timeAt s1 0 = 0 := hinv.t0
  have hy0 : vecOf N (solutionAt N s1 0) = y0 := hinv.y0
  have hd0 : vecOf N (derivativeAt N s1 0) = f 0 y0 := by
    have h1 : vecOf N (derivativeAt N s1 0) = f (timeAt s1 0) (vecOf N (solutionAt N s1 0)) := hinv.der 0 (by omega)
    rw [h1, ht0, hy0]
  obtain ⟨c', hl⟩ := C90_good_steps_accepted hN f atol 0 0 0 1 id Par.default Ctl.init 0 (solutionAt N s1 0) (derivativeAt N s1 0) (by
    intro i
    simp only [hy0, hd0, tolOf, zero_mul, add_zero]
    exact ⟨ha, h i⟩)
  have hl' : stepLoop id Par.default 0 (timeAt s1 (s1.n - 1)) (fun h => (rkdpTrial f atol 0
      (timeAt s1 (s1.n - 1)) h (solutionAt N s1 (s1.n - 1)) (derivativeAt N s1 (s1.n - 1))).err) 1 Ctl.init.optimal Ctl.init = .accepted 1 c' := by
    rw [hn, ht0]; exact hl
  obtain ⟨s2, hs2⟩ := step_succeeds (fun _ => 0) 0 _ 1 s1 Ctl.init hreach.inv (by omega) (by rw [hn]; exact hN2) 1 c' hl'
  have hr2 : DPRun f atol 0 y0 s2 := DPRun.step _ _ _ _ _ _ _ _ _ _ _ hrun (by omega) (by rw [hn]; exact hN2) hs2
  obtain ⟨-, r2, -, r4, r5, -⟩ := rkStep_points N _ _ _ _ _ _ _ s1 s2 _ _ _ hinv.le (by omega) (by rw [hn]; exact hN2) hs2
  refine ⟨s2, hr2, by omega, hr2.inv.t0, ?_⟩
  rw [hn] at r4
  rw [timeAt, r4, ht0]; norm_num

/-- C157 as stated is refuted for decaying quantities: with a large tolerance a step is accepted after which the quantity is more than three
times as large. -/
theorem C157_refuted_decay :
    ∃ s, DPRun (growEq 1 (-4)) 100 0 (fun _ => 1) s ∧ s.n = 2 ∧ 3 < vecOf 1 (solutionAt 1 s 1) 0 := by
  obtain ⟨s, h1, h2, h3, h4⟩ := one_step_run (by norm_num) (by decide) (growEq 1 (-4)) 100 (by norm_num) (fun _ => 1) (by
    intro i
    simp [innerStep, growEq, c2, c3, c4, c5, a21, a31, a32, a41, a42, a43, a51, a52, a53, a54, a61, a62, a63, a64, a65, a71, a73, a74, a75, a76,
      e1, e3, e4, e5, e6, e7]
    norm_num [abs_le])
  refine ⟨s, h1, h2, ?_⟩
  obtain ⟨-, -, hy, -, -⟩ := C90_accepted_steps (by norm_num) _ _ _ _ s h1
  have := C157_gain (by norm_num) (-4) 100 0 _ s h1 0 (by omega) 0
  rw [zero_add, hy, h3, h4] at this
  rw [this]
  norm_num [gainOf]

/-- C157 as stated is refuted for oscillations: the amplitude changes (here it grows). -/
theorem C157_refuted_amplitude :
    ∃ s, DPRun (swingEq 1) 100 0 ![1, 0] s ∧ s.n = 2 ∧ ampSq s 0 = 1 ∧ ampSq s 1 = 1 + 1 / 360000 := by
  obtain ⟨s, h1, h2, h3, h4⟩ := one_step_run (by norm_num) (by decide) (swingEq 1) 100 (by norm_num) ![1, 0] (by
    intro i
    fin_cases i <;>
    · simp [innerStep, swingEq, c2, c3, c4, c5, a21, a31, a32, a41, a42, a43, a51, a52, a53, a54, a61, a62, a63, a64, a65, a71, a73, a74, a75, a76,
        e1, e3, e4, e5, e6, e7]
      norm_num [abs_le])
  obtain ⟨-, -, hy, -, -⟩ := C90_accepted_steps (by norm_num) _ _ _ _ s h1
  have h0 : ampSq s 0 = 1 := by rw [ampSq, hy]; norm_num
  refine ⟨s, h1, h2, h0, ?_⟩
  have := C157_amplitude 1 100 0 _ s h1 0 (by omega)
  rw [zero_add, h0, h3, h4] at this
  rw [this]
  norm_num [ampOf]

/-- The runs of the refutations are also examples of the hypotheses of the other theorems. -/
example : ∃ s, DPRun (growEq 1 (-1)) 100 0 (fun _ => 1) s ∧ 0 + 1 < s.n ∧ (1 : ℝ) * (timeAt s 1 - timeAt s 0) ≤ 33 / 10 := by
  obtain ⟨s, h1, h2, h3, h4⟩ := one_step_run (by norm_num) (by decide) (growEq 1 (-1)) 100 (by norm_num) (fun _ => 1) (by
    intro i
    simp [innerStep, growEq, c2, c3, c4, c5, a21, a31, a32, a41, a42, a43, a51, a52, a53, a54, a61, a62, a63, a64, a65, a71, a73, a74, a75, a76,
      e1, e3, e4, e5, e6, e7]
    norm_num [abs_le])
  exact ⟨s, h1, by omega, by rw [h3, h4]; norm_num⟩

end

end Softlib
