/-
Relative and absolute errors of rounded computations, as real numbers.
-/
import Verif.General.RoundModel
import Mathlib.Data.Rat.Cast.Lemmas
import Mathlib.Data.Rat.Cast.Order
import Mathlib.Analysis.SpecialFunctions.Sqrt
import Mathlib.Tactic.Linarith
import Mathlib.Tactic.Ring
import Mathlib.Tactic.NormNum
import Mathlib.Tactic.Positivity

namespace Softlib
open Softlib.General

noncomputable section

/-! ### relative and absolute errors -/

/-- `x'` is `x` up to a factor between 1/G and G. -/
def WithinF (G x' x : ℝ) : Prop := 1 ≤ G ∧ ∃ θ, x' = θ * x ∧ G⁻¹ ≤ θ ∧ θ ≤ G

/-- `x'` differs from `x` by at most (G-1) A. -/
def Approx (G x' x A : ℝ) : Prop := 1 ≤ G ∧ |x| ≤ A ∧ |x' - x| ≤ (G - 1) * A

theorem within_refl (x : ℝ) : WithinF 1 x x := ⟨le_refl _, 1, by rw [one_mul], by norm_num, le_refl _⟩

theorem within_mul {G H x' x y' y : ℝ} (h : WithinF G x' x) (k : WithinF H y' y) : WithinF (G * H) (x' * y') (x * y) := by
  obtain ⟨g, θ, rfl, h1, h2⟩ := h
  obtain ⟨g', η, rfl, k1, k2⟩ := k
  have a : 0 < G⁻¹ := inv_pos.2 (by linarith)
  have b : 0 < H⁻¹ := inv_pos.2 (by linarith)
  refine ⟨by nlinarith, θ * η, by ring, ?_, ?_⟩
  · rw [mul_inv]; exact mul_le_mul h1 k1 b.le (le_trans a.le h1)
  · exact mul_le_mul h2 k2 (le_trans b.le k1) (by linarith)

theorem within_inv {G x' x : ℝ} (h : WithinF G x' x) : WithinF G x'⁻¹ x⁻¹ := by
  obtain ⟨g, θ, rfl, h1, h2⟩ := h
  have a : 0 < G⁻¹ := inv_pos.2 (by linarith)
  have hθ : 0 < θ := lt_of_lt_of_le a h1
  refine ⟨g, θ⁻¹, mul_inv _ _, ?_, ?_⟩
  · exact inv_anti₀ hθ h2
  · rw [← inv_inv G]; exact inv_anti₀ a h1

theorem within_div {G H x' x y' y : ℝ} (h : WithinF G x' x) (k : WithinF H y' y) : WithinF (G * H) (x' / y') (x / y) := by
  rw [div_eq_mul_inv, div_eq_mul_inv]; exact within_mul h (within_inv k)

theorem within_trans {G H x'' x' x : ℝ} (h : WithinF G x'' x') (k : WithinF H x' x) : WithinF (H * G) x'' x := by
  obtain ⟨g, θ, rfl, h1, h2⟩ := h
  have : WithinF G θ 1 := ⟨g, θ, by rw [mul_one], h1, h2⟩
  have := within_mul k this
  rwa [mul_one, mul_comm x'] at this

theorem within_mono {G H x' x : ℝ} (h : WithinF G x' x) (k : G ≤ H) : WithinF H x' x := by
  obtain ⟨g, θ, rfl, h1, h2⟩ := h
  exact ⟨le_trans g k, θ, rfl, le_trans (inv_anti₀ (by linarith) k) h1, le_trans h2 k⟩

theorem within_eq_zero {G x' x : ℝ} (h : WithinF G x' x) : x' = 0 ↔ x = 0 := by
  obtain ⟨g, θ, rfl, h1, h2⟩ := h
  have hθ : 0 < θ := lt_of_lt_of_le (inv_pos.2 (by linarith)) h1
  constructor
  · intro h; rcases mul_eq_zero.1 h with h | h
    · exact absurd h hθ.ne'
    · exact h
  · rintro rfl; rw [mul_zero]

theorem approx_of_within {G x' x : ℝ} (h : WithinF G x' x) : Approx G x' x |x| := by
  obtain ⟨g, θ, rfl, h1, h2⟩ := h
  refine ⟨g, le_refl _, ?_⟩
  rw [show θ * x - x = (θ - 1) * x by ring, abs_mul]
  refine mul_le_mul_of_nonneg_right (abs_le.2 ⟨?_, by linarith⟩) (abs_nonneg _)
  have : 1 - G⁻¹ ≤ G - 1 := by
    have e : G * G⁻¹ = 1 := mul_inv_cancel₀ (by linarith)
    nlinarith [inv_pos.2 (show (0 : ℝ) < G by linarith)]
  linarith

theorem approx_mono {G H x' x A : ℝ} (h : Approx G x' x A) (k : G ≤ H) : Approx H x' x A := by
  obtain ⟨g, h1, h2⟩ := h
  have : 0 ≤ A := le_trans (abs_nonneg _) h1
  exact ⟨le_trans g k, h1, le_trans h2 (mul_le_mul_of_nonneg_right (by linarith) this)⟩

theorem approx_mul {G H x' x A y' y : ℝ} (h : Approx G x' x A) (k : WithinF H y' y) : Approx (G * H) (x' * y') (x * y) (A * |y|) := by
  obtain ⟨g, h1, h2⟩ := h
  have hA : 0 ≤ A := le_trans (abs_nonneg _) h1
  have hk := (approx_of_within k).2.2
  obtain ⟨g', η, rfl, k1, k2⟩ := k
  have hη : 0 < η := lt_of_lt_of_le (inv_pos.2 (by linarith)) k1
  refine ⟨by nlinarith, by rw [abs_mul]; exact mul_le_mul_of_nonneg_right h1 (abs_nonneg _), ?_⟩
  have e : x' * (η * y) - x * y = (x' - x) * (η * y) + x * (η * y - y) := by ring
  have h3 : |(x' - x) * (η * y)| ≤ (G - 1) * A * (H * |y|) := by
    rw [abs_mul, abs_mul, abs_of_pos hη]
    exact mul_le_mul h2 (mul_le_mul_of_nonneg_right k2 (abs_nonneg _)) (by positivity) (mul_nonneg (by linarith) hA)
  have h4 : |x * (η * y - y)| ≤ A * ((H - 1) * |y|) := by
    rw [abs_mul]
    exact mul_le_mul h1 hk (abs_nonneg _) hA
  rw [e]
  refine le_trans (abs_add_le _ _) (le_trans (add_le_add h3 h4) (le_of_eq (by ring)))

theorem approx_add {G x' x A y' y B : ℝ} (h : Approx G x' x A) (k : Approx G y' y B) : Approx G (x' + y') (x + y) (A + B) := by
  obtain ⟨g, h1, h2⟩ := h
  obtain ⟨-, k1, k2⟩ := k
  refine ⟨g, le_trans (abs_add_le _ _) (add_le_add h1 k1), ?_⟩
  rw [add_sub_add_comm]
  exact le_trans (abs_add_le _ _) (by linarith)

theorem approx_neg {G x' x A : ℝ} (h : Approx G x' x A) : Approx G (-x') (-x) A := by
  obtain ⟨g, h1, h2⟩ := h
  exact ⟨g, by rwa [abs_neg], by rwa [← neg_sub', abs_neg]⟩

theorem approx_sub {G x' x A y' y B : ℝ} (h : Approx G x' x A) (k : Approx G y' y B) : Approx G (x' - y') (x - y) (A + B) := by
  rw [sub_eq_add_neg, sub_eq_add_neg]; exact approx_add h (approx_neg k)

theorem approx_trans {G H x'' x' x A : ℝ} (h : WithinF G x'' x') (k : Approx H x' x A) : Approx (H * G) x'' x A := by
  obtain ⟨g, θ, rfl, h1, h2⟩ := h
  have : WithinF G θ 1 := ⟨g, θ, by rw [mul_one], h1, h2⟩
  have := approx_mul k this
  rwa [mul_one, abs_one, mul_one, mul_comm x'] at this

/-- One rounding. -/
def unitFactorR (u : ℚ) : ℝ := (1 - (u : ℝ))⁻¹

theorem fl_within {u : ℚ} (R : Rnd u) (hu : u < 1) (x : ℚ) : WithinF (unitFactorR u) (R.fl x : ℝ) (x : ℝ) := by
  have hr := R.rel x
  have hu0 : 0 ≤ u := by
    have := R.rel 1
    rw [abs_one, mul_one] at this
    exact le_trans (abs_nonneg _) this
  have hu' : (u : ℝ) < 1 := by exact_mod_cast hu
  have hu0' : (0 : ℝ) ≤ u := by exact_mod_cast hu0
  have hE : 1 ≤ unitFactorR u := by
    unfold unitFactorR
    exact (one_le_inv₀ (by linarith)).2 (by linarith)
  have hE1 : 1 + (u : ℝ) ≤ unitFactorR u := by
    unfold unitFactorR
    rw [le_inv_comm₀ (by linarith) (by linarith)]
    rw [inv_eq_one_div, le_div_iff₀ (by linarith)] at *
    nlinarith
  have hr' : |(R.fl x : ℝ) - x| ≤ u * |(x : ℝ)| := by exact_mod_cast hr
  by_cases hx : (x : ℝ) = 0
  · rw [hx] at hr' ⊢
    rw [abs_zero, mul_zero] at hr'
    have : (R.fl x : ℝ) = 0 := by
      have := abs_nonpos_iff.1 hr'
      linarith
    exact ⟨hE, 1, by rw [this, mul_zero], inv_le_one_of_one_le₀ hE, hE⟩
  · refine ⟨hE, (R.fl x : ℝ) / x, (div_mul_cancel₀ _ hx).symm, ?_, ?_⟩
    all_goals
      have h3 : |(R.fl x : ℝ) / x - 1| ≤ u := by
        rw [show (R.fl x : ℝ) / x - 1 = ((R.fl x : ℝ) - x) / x by rw [sub_div, div_self hx], abs_div, div_le_iff₀ (abs_pos.2 hx)]
        exact hr'
      have h4 := abs_le.1 h3
    · unfold unitFactorR; rw [inv_inv]; linarith
    · linarith

theorem within_fl {u : ℚ} (R : Rnd u) (hu : u < 1) {G : ℝ} {x' : ℚ} {x : ℝ} (h : WithinF G (x' : ℝ) x) :
    WithinF (G * unitFactorR u) (R.fl x' : ℝ) x := within_trans (fl_within R hu x') h

theorem approx_fl {u : ℚ} (R : Rnd u) (hu : u < 1) {G A : ℝ} {x' : ℚ} {x : ℝ} (h : Approx G (x' : ℝ) x A) :
    Approx (G * unitFactorR u) (R.fl x' : ℝ) x A := approx_trans (fl_within R hu x') h

theorem within_add_pos {G x' x y' y : ℝ} (h : WithinF G x' x) (k : WithinF G y' y) (hx : 0 ≤ x) (hy : 0 ≤ y) : WithinF G (x' + y') (x + y) := by
  obtain ⟨g, θ, rfl, h1, h2⟩ := h
  obtain ⟨-, η, rfl, k1, k2⟩ := k
  rcases eq_or_lt_of_le (add_nonneg hx hy) with h0 | h0
  · have : x = 0 := by linarith
    have : y = 0 := by linarith
    subst x y
    simpa using within_mono (within_refl 0) g
  · refine ⟨g, (θ * x + η * y) / (x + y), (div_mul_cancel₀ _ h0.ne').symm, ?_, ?_⟩
    · rw [le_div_iff₀ h0]
      nlinarith [mul_le_mul_of_nonneg_right h1 hx, mul_le_mul_of_nonneg_right k1 hy]
    · rw [div_le_iff₀ h0]
      nlinarith [mul_le_mul_of_nonneg_right h2 hx, mul_le_mul_of_nonneg_right k2 hy]

theorem within_sqrt {G x' x : ℝ} (h : WithinF G x' x) : WithinF G (Real.sqrt x') (Real.sqrt x) := by
  obtain ⟨g, θ, rfl, h1, h2⟩ := h
  have hG : 0 < G⁻¹ := inv_pos.2 (by linarith)
  have hθ : 0 < θ := lt_of_lt_of_le hG h1
  refine ⟨g, Real.sqrt θ, Real.sqrt_mul hθ.le _, ?_, ?_⟩
  · refine le_trans ?_ (Real.sqrt_le_sqrt h1)
    refine Real.le_sqrt_of_sq_le ?_
    have : G⁻¹ ≤ 1 := inv_le_one_of_one_le₀ g
    nlinarith
  · refine Real.sqrt_le_iff.2 ⟨by linarith, ?_⟩
    nlinarith

theorem within_of_approx {K x' x A δ : ℝ} (h : Approx K x' x A) (hx : x ≠ 0) (hd : (K - 1) * A ≤ δ * |x|) (h0 : 0 ≤ δ) (h1 : δ < 1) :
    WithinF (1 - δ)⁻¹ x' x := by
  have hE : 1 + δ ≤ (1 - δ)⁻¹ := by
    rw [inv_eq_one_div, le_div_iff₀ (by linarith)]
    nlinarith
  have h3 : |x' / x - 1| ≤ δ := by
    rw [show x' / x - 1 = (x' - x) / x by rw [sub_div, div_self hx], abs_div, div_le_iff₀ (abs_pos.2 hx)]
    exact le_trans h.2.2 hd
  have h4 := abs_le.1 h3
  exact ⟨by linarith, x' / x, (div_mul_cancel₀ _ hx).symm, by rw [inv_inv]; linarith, by linarith⟩

theorem exists_near {K x : ℝ} (hK : 1 < K) (hx : 0 ≤ x) : ∃ q : ℚ, WithinF K (q : ℝ) x := by
  rcases hx.eq_or_lt with h | h
  · exact ⟨0, hK.le, 1, by rw [← h]; simp, inv_le_one_of_one_le₀ hK.le, hK.le⟩
  · obtain ⟨q, h1, h2⟩ := exists_rat_btwn (show x < K * x by nlinarith)
    refine ⟨q, hK.le, q / x, (div_mul_cancel₀ _ h.ne').symm, ?_, ?_⟩
    · exact le_trans (inv_le_one_of_one_le₀ hK.le) (by rw [le_div_iff₀ h]; linarith)
    · rw [div_le_iff₀ h]; linarith

/-- Roundings add up. -/
theorem unitFactor_pow {u : ℚ} (R : Rnd u) (hu : u < 1) (n : ℕ) (hn : 2 * n * u ≤ 1) : unitFactorR u ^ n - 1 ≤ 2 * n * (u : ℝ) := by
  have hu0 : 0 ≤ u := by
    have := R.rel 1
    rw [abs_one, mul_one] at this
    exact le_trans (abs_nonneg _) this
  have hu0' : (0 : ℝ) ≤ u := by exact_mod_cast hu0
  have hu' : (u : ℝ) < 1 := by exact_mod_cast hu
  have hn' : 2 * (n : ℝ) * u ≤ 1 := by exact_mod_cast hn
  have hb := one_add_mul_le_pow (show (-2 : ℝ) ≤ -u by linarith) n
  have h1 : 1 - n * (u : ℝ) ≤ (1 - u) ^ n := by
    rw [show (1 : ℝ) - u = 1 + -u by ring]
    linarith
  have hnu : 0 ≤ (n : ℝ) * u := by positivity
  have h2 : 0 < 1 - n * (u : ℝ) := by linarith
  rw [unitFactorR, inv_pow]
  have h3 : ((1 - (u : ℝ)) ^ n)⁻¹ ≤ (1 - n * (u : ℝ))⁻¹ := inv_anti₀ h2 h1
  have h4 : (1 - n * (u : ℝ))⁻¹ ≤ 1 + 2 * n * u := by
    rw [inv_eq_one_div, div_le_iff₀ h2]
    nlinarith
  linarith

theorem fl_zero' {u : ℚ} (R : Rnd u) : R.fl 0 = 0 := by
  have := R.rel 0
  rw [abs_zero, mul_zero, sub_zero] at this
  exact abs_nonpos_iff.1 this

end

end Softlib
