/-
C138: rounding in the analytical magnetic field.
-/
import Verif.General.WithinProps
import Verif.Magnetic.AnalyticRoundModel
import Verif.Magnetic.AnalyticProps
import Mathlib.Data.Rat.Cast.Lemmas
import Mathlib.Data.Rat.Cast.Order
import Mathlib.NumberTheory.Real.Irrational
import Mathlib.Tactic.Linarith
import Mathlib.Tactic.Ring
import Mathlib.Tactic.NormNum
import Mathlib.Tactic.Positivity
import Mathlib.Tactic.GCongr

namespace Softlib
open Softlib.Magnetic Softlib.General

noncomputable section

theorem hyp_rat_zero {a b : ℚ} (h : hyp (a : ℝ) (b : ℝ) = 0) : a = 0 ∧ b = 0 := by
  have := hyp_eq_zero h
  exact ⟨by exact_mod_cast this.1, by exact_mod_cast this.2⟩

/-! ### the field -/

/-- The mathematical library: `hypot` is accurate up to a factor H. -/
def AccurateHypot (L : MathLib) (H : ℝ) : Prop := ∀ a b : ℚ, WithinF H (L.hypot a b : ℝ) (hyp a b)

/-- The exact major and minor radius and safety factor. -/
def majorE (x y : ℚ) : ℝ := hyp x y
def minorE (f : AFieldR) (x y z : ℚ) : ℝ := hyp (f.rm - majorE x y) (z - f.zm)
def safetyE (f : AFieldR) (x y z : ℚ) : ℝ := safety f.q.real f.rminor (minorE f x y z)

/-- Where the field is defined, and the computed safety factor is accurate up to a factor G. -/
structure Computable {u : ℚ} (R : Rnd u) (L : MathLib) (G : ℝ) (f : AFieldR) (x y z : ℚ) : Prop where
  rm : f.rm ≠ 0
  major : majorE x y ≠ 0
  safety : safetyE f x y z ≠ 0
  near : WithinF G (safetyR R L f.q f.rminor (f.minor R L x y z) : ℝ) (safetyE f x y z)

section
variable {u : ℚ} (R : Rnd u) (hu : u < 1) (L : MathLib) {H G : ℝ} (hL : AccurateHypot L H) (f : AFieldR) (x y z : ℚ)

/-- The position, and what is computed from it alone. -/
theorem inverse_within (hu : u < 1) (hL : AccurateHypot L H) :
    WithinF (H * unitFactorR u) (R.fl (1 / AFieldR.major L x y) : ℝ) (1 / majorE x y) := by
  refine within_fl R hu ?_
  push_cast
  have := within_div (within_refl 1) (hL x y)
  rwa [one_mul] at this

theorem factor_within (hu : u < 1) (hL : AccurateHypot L H) :
    WithinF (H * unitFactorR u ^ 3) (f.factor R L x y : ℝ) (f.b0 * f.rm * (1 / majorE x y)) := by
  have h1 : WithinF (unitFactorR u) (R.fl (f.b0 * f.rm) : ℝ) (f.b0 * f.rm) := by
    have := fl_within R hu (f.b0 * f.rm)
    push_cast at this
    exact this
  have h2 := within_mul h1 (inverse_within R L x y hu hL)
  have h3 := within_fl R hu (x' := R.fl (f.b0 * f.rm) * R.fl (1 / AFieldR.major L x y)) (by push_cast; push_cast at h2; exact h2)
  rw [show H * unitFactorR u ^ 3 = unitFactorR u * (H * unitFactorR u) * unitFactorR u by ring]
  exact h3

/-- Sine or cosine of the toroidal angle. -/
theorem angle_within (hu : u < 1) (hL : AccurateHypot L H) (w : ℚ) :
    WithinF (H * unitFactorR u ^ 2) (R.fl (w * R.fl (1 / AFieldR.major L x y)) : ℝ) (w * (1 / majorE x y)) := by
  have h2 := within_mul (within_refl (w : ℝ)) (inverse_within R L x y hu hL)
  have h3 := within_fl R hu (x' := w * R.fl (1 / AFieldR.major L x y)) (by push_cast; push_cast at h2; exact h2)
  rw [show H * unitFactorR u ^ 2 = 1 * (H * unitFactorR u) * unitFactorR u by ring]
  exact h3

/-- The distance from the axis in R. -/
theorem offset_approx (hu : u < 1) (hL : AccurateHypot L H) :
    Approx (H * unitFactorR u) (R.fl (f.rm - AFieldR.major L x y) : ℝ) (f.rm - majorE x y) (|(f.rm : ℝ)| + majorE x y) := by
  refine approx_fl R hu ?_
  push_cast
  have hH : 1 ≤ H := (hL 0 0).1
  have h1 := approx_of_within (hL x y)
  rw [abs_of_nonneg (hyp_nonneg _ _)] at h1
  exact approx_sub (approx_mono (approx_of_within (within_refl _)) hH) h1

/-- The sign of the current times `t1` times a distance over the minor radius: the minor radius drops out. -/
theorem poloidal_within (hu : u < 1) (hL : AccurateHypot L H) (hc : Computable R L G f x y z) (w : ℚ)
    (hw : w = R.fl (f.rm - AFieldR.major L x y) ∨ w = R.fl (z - f.zm)) :
    WithinF (G * unitFactorR u ^ 4)
      ((R.fl (f.sigmaI * f.slope R L x y z) : ℝ) * ((if f.minor R L x y z ≠ 0 then R.fl (w / f.minor R L x y z) else 0 : ℚ) : ℝ))
      (f.sigmaI * w / (f.rm * safetyE f x y z)) := by
  have h1 := within_mul (within_refl (f.rm : ℝ)) hc.near
  rw [one_mul] at h1
  have h2 := within_fl R hu (x' := f.rm * safetyR R L f.q f.rminor (f.minor R L x y z)) (by push_cast; exact h1)
  have h3 := within_div (within_refl (f.minor R L x y z : ℝ)) h2
  have h4 := within_fl R hu (x' := f.minor R L x y z / R.fl (f.rm * safetyR R L f.q f.rminor (f.minor R L x y z))) (by push_cast; exact h3)
  have h5 := within_mul (within_refl (f.sigmaI : ℝ)) h4
  have h6 := within_fl R hu (x' := f.sigmaI * f.slope R L x y z) (by push_cast; exact h5)
  by_cases hr : f.minor R L x y z = 0
  · have h0 := hL (R.fl (f.rm - AFieldR.major L x y)) (R.fl (z - f.zm))
    have h7 : (L.hypot (R.fl (f.rm - AFieldR.major L x y)) (R.fl (z - f.zm)) : ℝ) = 0 := by exact_mod_cast hr
    have h8 := hyp_rat_zero ((within_eq_zero h0).1 h7)
    have hw0 : w = 0 := by rcases hw with rfl | rfl; exacts [h8.1, h8.2]
    rw [if_neg (not_not.2 hr), hw0]
    simp only [Rat.cast_zero, mul_zero, zero_div]
    have hG : 1 ≤ G * unitFactorR u ^ 4 := by
      have e := (within_mul (within_mul h2 (fl_within R hu 1)) (within_mul (fl_within R hu 1) (fl_within R hu 1))).1
      rwa [show G * unitFactorR u * unitFactorR u * (unitFactorR u * unitFactorR u) = G * unitFactorR u ^ 4 by ring] at e
    exact within_mono (within_refl 0) hG
  · rw [if_pos hr]
    have h7 : WithinF (unitFactorR u) (R.fl (w / f.minor R L x y z) : ℝ) (w / f.minor R L x y z) := by
      have := fl_within R hu (w / f.minor R L x y z)
      push_cast at this
      exact this
    have h8 := within_mul h6 h7
    have hr' : (f.minor R L x y z : ℝ) ≠ 0 := by exact_mod_cast hr
    have hrm : (f.rm : ℝ) ≠ 0 := by exact_mod_cast hc.rm
    have hq := hc.safety
    rw [show (f.sigmaI : ℝ) * w / (f.rm * safetyE f x y z) =
      f.sigmaI * (f.minor R L x y z / (f.rm * safetyE f x y z)) * (w / f.minor R L x y z) by field_simp]
    rw [show G * unitFactorR u ^ 4 = 1 * (1 * (G * unitFactorR u) * unitFactorR u) * unitFactorR u * unitFactorR u by ring]
    exact h8

/-- The exact field. -/
theorem exact_field (hc : Computable R L G f x y z) :
    f.real.eval x y z =
      (f.b0 * f.rm * (1 / majorE x y) * (f.sigmaI * (z - f.zm) / (f.rm * safetyE f x y z) * (x * (1 / majorE x y)) - f.sigmaB * (y * (1 / majorE x y))),
       f.b0 * f.rm * (1 / majorE x y) * (f.sigmaI * (z - f.zm) / (f.rm * safetyE f x y z) * (y * (1 / majorE x y)) + f.sigmaB * (x * (1 / majorE x y))),
       f.b0 * f.rm * (1 / majorE x y) * (f.sigmaI * (f.rm - majorE x y) / (f.rm * safetyE f x y z))) := by
  have hrm : (f.rm : ℝ) ≠ 0 := by exact_mod_cast hc.rm
  rw [eval_closed f.real hrm]
  have hR := hc.major
  have hq := hc.safety
  have e : safety f.real.q f.real.rminor (hyp (f.real.rm - hyp x y) (z - f.real.zm)) = safetyE f x y z := rfl
  rw [e, show hyp (x : ℝ) (y : ℝ) = majorE x y from rfl]
  generalize safetyE f x y z = q at hq ⊢
  generalize majorE x y = M at hR ⊢
  simp only [AFieldR.real]
  refine Prod.ext ?_ (Prod.ext ?_ ?_) <;> (simp only; field_simp)

/-- How large the parts of the components are. -/
def toroidalSize (f : AFieldR) (x y : ℚ) : ℝ := |(f.b0 * f.rm : ℝ)| / majorE x y

/-- **C138** The vertical component. -/
theorem C138_vertical (hu : u < 1) (hL : AccurateHypot L H) (hc : Computable R L G f x y z) :
    |((f.eval R L x y z).2.2 : ℝ) - (f.real.eval x y z).2.2| ≤
      (H ^ 2 * G * unitFactorR u ^ 10 - 1) *
        (toroidalSize f x y * (|(f.sigmaI : ℝ)| * (|(f.rm : ℝ)| + majorE x y) / |f.rm * safetyE f x y z|)) := by
  have h1 := poloidal_within R L f x y z hu hL hc _ (Or.inl rfl)
  have h2 := within_fl R hu (x' := R.fl (f.sigmaI * f.slope R L x y z) *
    (if f.minor R L x y z ≠ 0 then R.fl (R.fl (f.rm - AFieldR.major L x y) / f.minor R L x y z) else 0)) (by push_cast; push_cast at h1; exact h1)
  have h3 := within_mul (factor_within R L f x y hu hL) h2
  have h4 := within_fl R hu (x' := f.factor R L x y * R.fl (R.fl (f.sigmaI * f.slope R L x y z) *
    (if f.minor R L x y z ≠ 0 then R.fl (R.fl (f.rm - AFieldR.major L x y) / f.minor R L x y z) else 0))) (by push_cast; push_cast at h3; exact h3)
  have h5 := approx_mul (offset_approx R L f x y hu hL) (within_refl (f.b0 * f.rm * (1 / majorE x y) * (f.sigmaI / (f.rm * safetyE f x y z))))
  rw [show (R.fl (f.rm - AFieldR.major L x y) : ℝ) * (f.b0 * f.rm * (1 / majorE x y) * (f.sigmaI / (f.rm * safetyE f x y z))) =
    f.b0 * f.rm * (1 / majorE x y) * (f.sigmaI * (R.fl (f.rm - AFieldR.major L x y)) / (f.rm * safetyE f x y z)) by ring] at h5
  have h6 := (approx_trans h4 h5).2.2
  have hM : 0 ≤ majorE x y := hyp_nonneg _ _
  rw [exact_field R L f x y z hc]
  simp only
  refine le_trans (le_of_eq ?_) (le_trans h6 (le_of_eq ?_))
  · congr 1
    rw [show f.b0 * f.rm * (1 / majorE x y) * (f.sigmaI * (f.rm - majorE x y) / (f.rm * safetyE f x y z)) =
      (f.rm - majorE x y) * (f.b0 * f.rm * (1 / majorE x y) * (f.sigmaI / (f.rm * safetyE f x y z))) by ring]
    rfl
  · rw [show H * unitFactorR u * 1 * (H * unitFactorR u ^ 3 * (G * unitFactorR u ^ 4 * unitFactorR u) * unitFactorR u) =
      H ^ 2 * G * unitFactorR u ^ 10 by ring]
    rw [abs_mul (f.b0 * f.rm * (1 / majorE x y)), abs_mul ((f.b0 : ℝ) * f.rm), abs_div (1 : ℝ), abs_one, abs_of_nonneg hM, abs_div (f.sigmaI : ℝ), toroidalSize]
    ring

/-- One of the horizontal components before the last product. -/
theorem horizontal_approx (hu : u < 1) (hL : AccurateHypot L H) (hc : Computable R L G f x y z) (v w : ℚ) (s : ℝ) (hs : s = 1 ∨ s = -1)
    (c : ℚ) (hcv : (c : ℝ) = (R.fl (R.fl (f.sigmaI * f.slope R L x y z) *
        R.fl ((if f.minor R L x y z ≠ 0 then R.fl (R.fl (z - f.zm) / f.minor R L x y z) else 0) * R.fl (v * R.fl (1 / AFieldR.major L x y)))) : ℝ) +
      s * (R.fl (f.sigmaB * R.fl (w * R.fl (1 / AFieldR.major L x y))) : ℝ)) :
    Approx (H ^ 2 * G * unitFactorR u ^ 14) (R.fl (f.factor R L x y * R.fl c) : ℝ)
      (f.b0 * f.rm * (1 / majorE x y) *
        (f.sigmaI * (z - f.zm) / (f.rm * safetyE f x y z) * (v * (1 / majorE x y)) + s * (f.sigmaB * (w * (1 / majorE x y)))))
      ((|f.sigmaI * (z - f.zm) / (f.rm * safetyE f x y z) * (v * (1 / majorE x y))| + |f.sigmaB * (w * (1 / majorE x y))|) *
        |f.b0 * f.rm * (1 / majorE x y)|) := by
  have hH : 1 ≤ H := (hL 0 0).1
  have hG : 1 ≤ G := hc.near.1
  have hE : 1 ≤ unitFactorR u := (fl_within R hu 1).1
  have h1 := poloidal_within R L f x y z hu hL hc _ (Or.inr rfl)
  obtain ⟨sn, hsn⟩ : ∃ sn : ℚ, sn = if f.minor R L x y z ≠ 0 then R.fl (R.fl (z - f.zm) / f.minor R L x y z) else 0 := ⟨_, rfl⟩
  rw [← hsn] at h1 hcv
  have hz : WithinF (unitFactorR u) (R.fl (z - f.zm) : ℝ) (z - f.zm) := by
    have := fl_within R hu (z - f.zm)
    push_cast at this
    exact this
  have h2 : WithinF (G * unitFactorR u ^ 5) ((R.fl (f.sigmaI * f.slope R L x y z) : ℝ) * sn) (f.sigmaI * (z - f.zm) / (f.rm * safetyE f x y z)) := by
    have e := within_mul hz (within_refl ((f.sigmaI : ℝ) / (f.rm * safetyE f x y z)))
    rw [show (R.fl (z - f.zm) : ℝ) * (f.sigmaI / (f.rm * safetyE f x y z)) = f.sigmaI * (R.fl (z - f.zm)) / (f.rm * safetyE f x y z) by ring,
      show ((z : ℝ) - f.zm) * (f.sigmaI / (f.rm * safetyE f x y z)) = f.sigmaI * (z - f.zm) / (f.rm * safetyE f x y z) by ring] at e
    have e' := within_trans h1 e
    rwa [show unitFactorR u * 1 * (G * unitFactorR u ^ 4) = G * unitFactorR u ^ 5 by ring] at e'
  have h3 := within_mul h2 (angle_within R L x y hu hL v)
  have h4 : WithinF (H * G * unitFactorR u ^ 8) ((R.fl (f.sigmaI * f.slope R L x y z) : ℝ) * (R.fl (sn * R.fl (v * R.fl (1 / AFieldR.major L x y))) : ℝ))
      (f.sigmaI * (z - f.zm) / (f.rm * safetyE f x y z) * (v * (1 / majorE x y))) := by
    have e := fl_within R hu (sn * R.fl (v * R.fl (1 / AFieldR.major L x y)))
    push_cast at e
    have e2 := within_mul (within_refl (R.fl (f.sigmaI * f.slope R L x y z) : ℝ)) e
    rw [← mul_assoc] at e2
    push_cast at h3 e2 ⊢
    have e3 := within_trans e2 h3
    rwa [show G * unitFactorR u ^ 5 * (H * unitFactorR u ^ 2) * (1 * unitFactorR u) = H * G * unitFactorR u ^ 8 by ring] at e3
  have h5 := within_fl R hu (x' := R.fl (f.sigmaI * f.slope R L x y z) * R.fl (sn * R.fl (v * R.fl (1 / AFieldR.major L x y)))) (by push_cast; push_cast at h4; exact h4)
  have h6 := within_mul (within_refl (f.sigmaB : ℝ)) (angle_within R L x y hu hL w)
  have h7 := within_fl R hu (x' := f.sigmaB * R.fl (w * R.fl (1 / AFieldR.major L x y))) (by push_cast; push_cast at h6; exact h6)
  have h8 := approx_of_within h5
  have h9 := approx_mono (approx_of_within h7) (show 1 * (H * unitFactorR u ^ 2) * unitFactorR u ≤ H * G * unitFactorR u ^ 8 * unitFactorR u by
    have : unitFactorR u ^ 2 ≤ unitFactorR u ^ 8 := pow_le_pow_right₀ hE (by norm_num)
    have h0 : 0 ≤ unitFactorR u ^ 2 := by positivity
    refine mul_le_mul_of_nonneg_right ?_ (by linarith)
    calc 1 * (H * unitFactorR u ^ 2) = H * 1 * unitFactorR u ^ 2 := by ring
      _ ≤ H * G * unitFactorR u ^ 8 := by gcongr)
  have h10 : Approx (H * G * unitFactorR u ^ 8 * unitFactorR u) (c : ℝ)
      (f.sigmaI * (z - f.zm) / (f.rm * safetyE f x y z) * (v * (1 / majorE x y)) + s * (f.sigmaB * (w * (1 / majorE x y))))
      (|f.sigmaI * (z - f.zm) / (f.rm * safetyE f x y z) * (v * (1 / majorE x y))| + |f.sigmaB * (w * (1 / majorE x y))|) := by
    rw [hcv]
    rcases hs with rfl | rfl
    · rw [one_mul, one_mul]; exact approx_add h8 h9
    · rw [neg_one_mul, neg_one_mul]; exact approx_add h8 (approx_neg h9)
  have h11 := approx_mul (approx_fl R hu h10) (factor_within R L f x y hu hL)
  have h12 := approx_fl R hu (x' := R.fl c * f.factor R L x y) (by push_cast; exact h11)
  rw [show H * G * unitFactorR u ^ 8 * unitFactorR u * unitFactorR u * (H * unitFactorR u ^ 3) * unitFactorR u = H ^ 2 * G * unitFactorR u ^ 14 by ring] at h12
  rw [mul_comm (f.factor R L x y), mul_comm (f.b0 * f.rm * (1 / majorE x y))]
  exact h12

theorem coord_le_major : |(x : ℝ)| ≤ majorE x y ∧ |(y : ℝ)| ≤ majorE x y := by
  constructor
  · exact Real.abs_le_sqrt (by nlinarith [sq_nonneg (y : ℝ)])
  · exact Real.abs_le_sqrt (by nlinarith [sq_nonneg (x : ℝ)])

theorem part_le (hc : Computable R L G f x y z) (v w : ℚ) (hv : |(v : ℝ)| ≤ majorE x y) (hw : |(w : ℝ)| ≤ majorE x y) :
    (|f.sigmaI * (z - f.zm) / (f.rm * safetyE f x y z) * (v * (1 / majorE x y))| + |f.sigmaB * (w * (1 / majorE x y))|) *
        |f.b0 * f.rm * (1 / majorE x y)| ≤
      toroidalSize f x y * (|(f.sigmaB : ℝ)| + |(f.sigmaI : ℝ)| * |(z : ℝ) - f.zm| / |f.rm * safetyE f x y z|) := by
  have hM : 0 < majorE x y := lt_of_le_of_ne (hyp_nonneg _ _) (Ne.symm hc.major)
  have e : ∀ v : ℚ, |(v : ℝ)| ≤ majorE x y → |(v : ℝ) * (1 / majorE x y)| ≤ 1 := by
    intro v hv
    rw [abs_mul, abs_div, abs_one, abs_of_pos hM, mul_one_div, div_le_one hM]
    exact hv
  have e1 : |f.sigmaI * (z - f.zm) / (f.rm * safetyE f x y z) * (v * (1 / majorE x y))| ≤ |(f.sigmaI : ℝ)| * |(z : ℝ) - f.zm| / |f.rm * safetyE f x y z| := by
    rw [abs_mul, abs_div, abs_mul (f.sigmaI : ℝ)]
    exact mul_le_of_le_one_right (by positivity) (e v hv)
  have e2 : |f.sigmaB * (w * (1 / majorE x y))| ≤ |(f.sigmaB : ℝ)| := by
    rw [abs_mul]
    exact mul_le_of_le_one_right (by positivity) (e w hw)
  have e3 : |f.b0 * f.rm * (1 / majorE x y)| = toroidalSize f x y := by
    rw [abs_mul ((f.b0 : ℝ) * f.rm), abs_div, abs_one, abs_of_pos hM, toroidalSize, mul_one_div]
  rw [e3, mul_comm]
  have : 0 ≤ toroidalSize f x y := by rw [← e3]; exact abs_nonneg _
  exact mul_le_mul_of_nonneg_left (by linarith) this

/-- **C138** The horizontal components. -/
theorem C138_horizontal (hu : u < 1) (hL : AccurateHypot L H) (hc : Computable R L G f x y z) :
    |((f.eval R L x y z).1 : ℝ) - (f.real.eval x y z).1| ≤ (H ^ 2 * G * unitFactorR u ^ 14 - 1) *
        (toroidalSize f x y * (|(f.sigmaB : ℝ)| + |(f.sigmaI : ℝ)| * |(z : ℝ) - f.zm| / |f.rm * safetyE f x y z|)) ∧
    |((f.eval R L x y z).2.1 : ℝ) - (f.real.eval x y z).2.1| ≤ (H ^ 2 * G * unitFactorR u ^ 14 - 1) *
        (toroidalSize f x y * (|(f.sigmaB : ℝ)| + |(f.sigmaI : ℝ)| * |(z : ℝ) - f.zm| / |f.rm * safetyE f x y z|)) := by
  have hx := (coord_le_major x y).1
  have hy := (coord_le_major x y).2
  rw [exact_field R L f x y z hc]
  constructor
  · have h := horizontal_approx R L f x y z hu hL hc x y (-1) (Or.inr rfl)
      (R.fl (R.fl (f.sigmaI * f.slope R L x y z) *
        R.fl ((if f.minor R L x y z ≠ 0 then R.fl (R.fl (z - f.zm) / f.minor R L x y z) else 0) * R.fl (x * R.fl (1 / AFieldR.major L x y)))) -
        R.fl (f.sigmaB * R.fl (y * R.fl (1 / AFieldR.major L x y)))) (by push_cast; ring)
    refine le_trans (le_of_eq ?_) (le_trans h.2.2 (mul_le_mul_of_nonneg_left (part_le R L f x y z hc x y hx hy) (by linarith [h.1])))
    simp only [AFieldR.eval, neg_one_mul, ← sub_eq_add_neg]
  · have h := horizontal_approx R L f x y z hu hL hc y x 1 (Or.inl rfl)
      (R.fl (R.fl (f.sigmaI * f.slope R L x y z) *
        R.fl ((if f.minor R L x y z ≠ 0 then R.fl (R.fl (z - f.zm) / f.minor R L x y z) else 0) * R.fl (y * R.fl (1 / AFieldR.major L x y)))) +
        R.fl (f.sigmaB * R.fl (x * R.fl (1 / AFieldR.major L x y)))) (by push_cast; ring)
    refine le_trans (le_of_eq ?_) (le_trans h.2.2 (mul_le_mul_of_nonneg_left (part_le R L f x y z hc y x hy hx) (by linarith [h.1])))
    simp only [AFieldR.eval, one_mul]

/-- The largest of the differences of the three components. -/
def fieldError (v : ℚ × ℚ × ℚ) (w : ℝ × ℝ × ℝ) : ℝ := max (max |(v.1 : ℝ) - w.1| |(v.2.1 : ℝ) - w.2.1|) |(v.2.2 : ℝ) - w.2.2|

/-- The length of a vector. -/
def fieldNorm (w : ℝ × ℝ × ℝ) : ℝ := Real.sqrt (w.1 ^ 2 + w.2.1 ^ 2 + w.2.2 ^ 2)

/-- How much larger the error may be than the roundings. -/
def amplification (f : AFieldR) (x y z : ℚ) : ℝ :=
  1 + (|(f.rm : ℝ)| + majorE x y + |(z : ℝ) - f.zm|) / |f.rm * safetyE f x y z|

/-- The toroidal part alone is not longer than the field. -/
theorem toroidal_le_norm (hc : Computable R L G f x y z) (hB : (f.sigmaB : ℝ) ^ 2 = 1) : toroidalSize f x y ≤ fieldNorm (f.real.eval x y z) := by
  have hM : 0 < majorE x y := lt_of_le_of_ne (hyp_nonneg _ _) (Ne.symm hc.major)
  have hMM : majorE x y * majorE x y = (x : ℝ) ^ 2 + (y : ℝ) ^ 2 := hyp_mul_self _ _
  rw [exact_field R L f x y z hc]
  refine Real.le_sqrt_of_sq_le ?_
  simp only
  rw [toroidalSize, div_pow, sq_abs]
  generalize (f.sigmaI : ℝ) * (z - f.zm) / (f.rm * safetyE f x y z) = P
  generalize (f.sigmaI : ℝ) * (f.rm - majorE x y) / (f.rm * safetyE f x y z) = Q
  generalize (f.b0 : ℝ) * f.rm = T
  generalize (f.sigmaB : ℝ) = σ at hB ⊢
  generalize majorE x y = M at hM hMM ⊢
  have e : (T * (1 / M) * (P * (x * (1 / M)) - σ * (y * (1 / M)))) ^ 2 + (T * (1 / M) * (P * (y * (1 / M)) + σ * (x * (1 / M)))) ^ 2 =
      T ^ 2 / M ^ 2 * (P ^ 2 + σ ^ 2) * ((x ^ 2 + y ^ 2) / (M * M)) := by field_simp; ring
  rw [e, hB, ← hMM, div_self (by positivity), mul_one]
  have : 0 ≤ T ^ 2 / M ^ 2 := by positivity
  nlinarith [mul_nonneg this (sq_nonneg P), sq_nonneg (T * (1 / M) * Q)]

/-- **C138** The error of the field, as a vector, is relative to the field: the unit of rounding times the number of roundings, and larger only as the
distances are larger than the safety factor times the major radius. -/
theorem C138_relative (hu : u < 1) (hL : AccurateHypot L H) (hc : Computable R L G f x y z) (hB : (f.sigmaB : ℝ) ^ 2 = 1) (hI : (f.sigmaI : ℝ) ^ 2 = 1) :
    fieldError (f.eval R L x y z) (f.real.eval x y z) ≤
      (H ^ 2 * G * unitFactorR u ^ 14 - 1) * amplification f x y z * fieldNorm (f.real.eval x y z) := by
  have hM : 0 < majorE x y := lt_of_le_of_ne (hyp_nonneg _ _) (Ne.symm hc.major)
  have hH : 1 ≤ H := (hL 0 0).1
  have hG : 1 ≤ G := hc.near.1
  have hE : 1 ≤ unitFactorR u := (fl_within R hu 1).1
  have aB : |(f.sigmaB : ℝ)| = 1 := by rw [← Real.sqrt_sq_eq_abs, hB, Real.sqrt_one]
  have aI : |(f.sigmaI : ℝ)| = 1 := by rw [← Real.sqrt_sq_eq_abs, hI, Real.sqrt_one]
  have hT := toroidal_le_norm R L f x y z hc hB
  have hT0 : 0 ≤ toroidalSize f x y := by unfold toroidalSize; positivity
  have hK : H ^ 2 * G * unitFactorR u ^ 10 ≤ H ^ 2 * G * unitFactorR u ^ 14 := by
    have : unitFactorR u ^ 10 ≤ unitFactorR u ^ 14 := pow_le_pow_right₀ hE (by norm_num)
    gcongr
  have hK1 : 1 ≤ H ^ 2 * G * unitFactorR u ^ 14 := by
    have h1 : 1 ≤ H ^ 2 := one_le_pow₀ hH
    have h2 : 1 ≤ unitFactorR u ^ 14 := one_le_pow₀ hE
    calc (1 : ℝ) = 1 * 1 * 1 := by ring
      _ ≤ _ := by gcongr
  have hq : 0 < |f.rm * safetyE f x y z| := abs_pos.2 (mul_ne_zero (by exact_mod_cast hc.rm) hc.safety)
  have hz := C138_vertical R L f x y z hu hL hc
  have hxy := C138_horizontal R L f x y z hu hL hc
  rw [aI] at hz hxy
  rw [aB] at hxy
  have key : ∀ e K P : ℝ, e ≤ (K - 1) * (toroidalSize f x y * P) → K ≤ H ^ 2 * G * unitFactorR u ^ 14 → 0 ≤ P → P ≤ amplification f x y z →
      e ≤ (H ^ 2 * G * unitFactorR u ^ 14 - 1) * amplification f x y z * fieldNorm (f.real.eval x y z) := by
    intro e K P h1 h2 h3 h4
    have h5 : 0 ≤ toroidalSize f x y * P := mul_nonneg hT0 h3
    calc e ≤ (K - 1) * (toroidalSize f x y * P) := h1
      _ ≤ (H ^ 2 * G * unitFactorR u ^ 14 - 1) * (toroidalSize f x y * P) := mul_le_mul_of_nonneg_right (by linarith) h5
      _ ≤ (H ^ 2 * G * unitFactorR u ^ 14 - 1) * (fieldNorm (f.real.eval x y z) * amplification f x y z) :=
        mul_le_mul_of_nonneg_left (mul_le_mul hT h4 h3 (Real.sqrt_nonneg _)) (by linarith)
      _ = _ := by ring
  refine max_le (max_le ?_ ?_) ?_
  · refine key _ _ _ hxy.1 (le_refl _) (by positivity) ?_
    unfold amplification
    rw [one_mul]
    have := div_le_div_of_nonneg_right (show |(z : ℝ) - f.zm| ≤ |(f.rm : ℝ)| + majorE x y + |(z : ℝ) - f.zm| by linarith [abs_nonneg (f.rm : ℝ)]) hq.le
    linarith
  · refine key _ _ _ hxy.2 (le_refl _) (by positivity) ?_
    unfold amplification
    rw [one_mul]
    have := div_le_div_of_nonneg_right (show |(z : ℝ) - f.zm| ≤ |(f.rm : ℝ)| + majorE x y + |(z : ℝ) - f.zm| by linarith [abs_nonneg (f.rm : ℝ)]) hq.le
    linarith
  · refine key _ _ _ hz hK (by positivity) ?_
    unfold amplification
    rw [one_mul]
    have := div_le_div_of_nonneg_right (show |(f.rm : ℝ)| + majorE x y ≤ |(f.rm : ℝ)| + majorE x y + |(z : ℝ) - f.zm| by
      linarith [abs_nonneg ((z : ℝ) - f.zm)]) hq.le
    linarith

/-! ### the strength -/

theorem hyp_lipschitz (a c a' c' : ℝ) : |hyp a' c' - hyp a c| ≤ |a' - a| + |c' - c| := by
  have key : ∀ a c a' c' : ℝ, hyp a' c' ≤ hyp a c + (|a' - a| + |c' - c|) := by
    intro a c a' c'
    have h0 := hyp_nonneg a c
    have h1 := hyp_mul_self a c
    have ha : |a| ≤ hyp a c := Real.abs_le_sqrt (by nlinarith [sq_nonneg c])
    have hc : |c| ≤ hyp a c := Real.abs_le_sqrt (by nlinarith [sq_nonneg a])
    have d1 := abs_nonneg (a' - a)
    have d2 := abs_nonneg (c' - c)
    have e1 : a' ^ 2 ≤ a ^ 2 + 2 * |a| * |a' - a| + |a' - a| ^ 2 := by
      have : |a'| ≤ |a| + |a' - a| := by have := abs_add_le a (a' - a); rwa [add_sub_cancel] at this
      have := mul_self_le_mul_self (abs_nonneg _) this
      rw [abs_mul_abs_self] at this
      nlinarith [sq_abs a]
    have e2 : c' ^ 2 ≤ c ^ 2 + 2 * |c| * |c' - c| + |c' - c| ^ 2 := by
      have : |c'| ≤ |c| + |c' - c| := by have := abs_add_le c (c' - c); rwa [add_sub_cancel] at this
      have := mul_self_le_mul_self (abs_nonneg _) this
      rw [abs_mul_abs_self] at this
      nlinarith [sq_abs c]
    rw [hyp]
    refine Real.sqrt_le_iff.2 ⟨by positivity, ?_⟩
    generalize |a' - a| = p at *
    generalize |c' - c| = q at *
    nlinarith [mul_le_mul_of_nonneg_right ha d1, mul_le_mul_of_nonneg_right hc d2, mul_nonneg d1 d2]
  rw [abs_le]
  have k1 := key a c a' c'
  have k2 := key a' c' a c
  rw [abs_sub_comm a, abs_sub_comm c] at k2
  constructor <;> linarith

theorem hyp_le (a c : ℝ) : hyp a c ≤ |a| + |c| := by
  have := hyp_lipschitz 0 0 a c
  rw [show hyp 0 0 = 0 by simp [hyp], sub_zero, sub_zero, sub_zero, abs_of_nonneg (hyp_nonneg _ _)] at this
  exact this

theorem minor_approx (hu : u < 1) (hL : AccurateHypot L H) :
    Approx (H ^ 2 * unitFactorR u) (f.minor R L x y z : ℝ) (minorE f x y z) (|(f.rm : ℝ)| + majorE x y + |(z : ℝ) - f.zm|) := by
  have hH : 1 ≤ H := (hL 0 0).1
  have hE : 1 ≤ unitFactorR u := (fl_within R hu 1).1
  have ha := offset_approx R L f x y hu hL
  have hz : Approx (H * unitFactorR u) (R.fl (z - f.zm) : ℝ) (z - f.zm) |(z : ℝ) - f.zm| := by
    have := fl_within R hu (z - f.zm)
    push_cast at this
    exact approx_mono (approx_of_within this) (le_mul_of_one_le_left (by linarith) hH)
  have h1 : Approx (H * unitFactorR u) (hyp (R.fl (f.rm - AFieldR.major L x y)) (R.fl (z - f.zm))) (minorE f x y z)
      (|(f.rm : ℝ)| + majorE x y + |(z : ℝ) - f.zm|) := by
    refine ⟨ha.1, ?_, ?_⟩
    · rw [minorE, abs_of_nonneg (hyp_nonneg _ _)]
      exact le_trans (hyp_le _ _) (by linarith [ha.2.1])
    · exact le_trans (hyp_lipschitz _ _ _ _) (by linarith [ha.2.2, hz.2.2])
  have h2 := approx_trans (hL (R.fl (f.rm - AFieldR.major L x y)) (R.fl (z - f.zm))) h1
  rwa [show H * unitFactorR u * H = H ^ 2 * unitFactorR u by ring] at h2

theorem slope_approx (hu : u < 1) (hL : AccurateHypot L H) (hc : Computable R L G f x y z) :
    Approx (H ^ 2 * G * unitFactorR u ^ 3) (f.slope R L x y z : ℝ) (minorE f x y z / (f.rm * safetyE f x y z))
      ((|(f.rm : ℝ)| + majorE x y + |(z : ℝ) - f.zm|) / |f.rm * safetyE f x y z|) := by
  have h1 := within_mul (within_refl (f.rm : ℝ)) hc.near
  have h2 := within_fl R hu (x' := f.rm * safetyR R L f.q f.rminor (f.minor R L x y z)) (by push_cast; exact h1)
  have h3 := approx_mul (minor_approx R L f x y z hu hL) (within_inv h2)
  have h4 := approx_fl R hu (x' := f.minor R L x y z / R.fl (f.rm * safetyR R L f.q f.rminor (f.minor R L x y z))) (by
    push_cast; rw [div_eq_mul_inv]; exact h3)
  rw [← div_eq_mul_inv, abs_inv, ← div_eq_mul_inv, show H ^ 2 * unitFactorR u * (1 * G * unitFactorR u) * unitFactorR u = H ^ 2 * G * unitFactorR u ^ 3 by ring] at h4
  exact h4

/-- The mathematical library: `sqrt` is accurate up to a factor S. -/
def AccurateSqrt (L : MathLib) (S : ℝ) : Prop := ∀ a : ℚ, 0 ≤ a → WithinF S (L.sqrt a : ℝ) (Real.sqrt a)

/-- **C138** The strength. -/
theorem C138_strength (hu : u < 1) (hL : AccurateHypot L H) {S : ℝ} (hS : AccurateSqrt L S) (hc : Computable R L G f x y z) :
    |(f.strength R L x y z : ℝ) - (f.real.evalDerivatives x y z).babs| ≤
      (H ^ 3 * G * S * unitFactorR u ^ 9 - 1) * (toroidalSize f x y * amplification f x y z) := by
  have hM : 0 < majorE x y := lt_of_le_of_ne (hyp_nonneg _ _) (Ne.symm hc.major)
  have hE : 1 ≤ unitFactorR u := (fl_within R hu 1).1
  have ht := slope_approx R L f x y z hu hL hc
  obtain ⟨t, htd⟩ : ∃ t : ℚ, t = f.slope R L x y z := ⟨_, rfl⟩
  rw [← htd] at ht
  have h1 : WithinF (unitFactorR u) (R.fl (t * t) : ℝ) (t * t) := by
    have := fl_within R hu (t * t)
    push_cast at this
    exact this
  have h2 := within_add_pos h1 (within_mono (within_refl (1 : ℝ)) hE) (mul_self_nonneg _) zero_le_one
  have h3 := within_fl R hu (x' := R.fl (t * t) + 1) (by push_cast; exact h2)
  have hpos : 0 ≤ R.fl (R.fl (t * t) + 1) := by
    obtain ⟨g, θ, e, k1, k2⟩ := h3
    have : (0 : ℝ) ≤ (R.fl (R.fl (t * t) + 1) : ℝ) := by
      rw [e]
      exact mul_nonneg (le_trans (inv_nonneg.2 (by linarith)) k1) (by nlinarith [mul_self_nonneg (t : ℝ)])
    exact_mod_cast this
  have h4 := within_trans (hS _ hpos) (within_sqrt h3)
  have h5 : Approx (H ^ 2 * G * unitFactorR u ^ 3) (Real.sqrt (t * t + 1))
      (Real.sqrt (minorE f x y z / (f.rm * safetyE f x y z) * (minorE f x y z / (f.rm * safetyE f x y z)) + 1)) (amplification f x y z) := by
    have e : ∀ s : ℝ, Real.sqrt (s * s + 1) = hyp s 1 := by intro s; rw [hyp]; congr 1; ring
    rw [e, e]
    refine ⟨ht.1, ?_, ?_⟩
    · rw [abs_of_nonneg (hyp_nonneg _ _)]
      refine le_trans (hyp_le _ _) ?_
      rw [abs_one, amplification]
      linarith [ht.2.1]
    · refine le_trans (hyp_lipschitz _ _ _ _) ?_
      rw [sub_self, abs_zero, add_zero]
      refine le_trans ht.2.2 (mul_le_mul_of_nonneg_left ?_ (by linarith [ht.1]))
      rw [amplification]
      linarith
  have h6 := approx_mul (approx_trans h4 h5) (factor_within R L f x y hu hL)
  have h7 := approx_fl R hu (x' := L.sqrt (R.fl (R.fl (t * t) + 1)) * f.factor R L x y) (by push_cast; exact h6)
  refine le_trans (le_of_eq ?_) (le_trans h7.2.2 (le_of_eq ?_))
  · rw [mul_comm (L.sqrt _), AFieldR.strength, ← htd]
    congr 2
    show (f.b0 : ℝ) * f.rm * (1 / majorE x y) * _ = _
    rw [mul_comm]
    rfl
  · rw [show H ^ 2 * G * unitFactorR u ^ 3 * (unitFactorR u * unitFactorR u * S) * (H * unitFactorR u ^ 3) * unitFactorR u =
      H ^ 3 * G * S * unitFactorR u ^ 9 by ring]
    rw [abs_mul ((f.b0 : ℝ) * f.rm), abs_div, abs_one, abs_of_pos hM, toroidalSize]
    ring

/-! ### the safety factor -/

/-- A constant safety factor is exact, and so is that of a current profile with an infinite second parameter. -/
theorem constant_computable (a : ℚ) (hq : f.q = .constant a ∨ f.q = .current a none) (ha : a ≠ 0) (hrm : f.rm ≠ 0) (hR : majorE x y ≠ 0) :
    Computable R L 1 f x y z := by
  have h : safetyE f x y z = a := by rw [safetyE]; rcases hq with h | h <;> rw [h] <;> rfl
  have h' : safetyR R L f.q f.rminor (f.minor R L x y z) = a := by rcases hq with h | h <;> rw [h] <;> rfl
  exact ⟨hrm, hR, by rw [h]; exact_mod_cast ha, by rw [h, h']; exact within_refl _⟩

/-- **C138** A linear safety factor. -/
theorem C138_linear (hu : u < 1) (hL : AccurateHypot L H) (a b : ℚ) (hq : f.q = .linear a b) (hrm : f.rm ≠ 0) (hR : majorE x y ≠ 0)
    (h0 : safetyE f x y z ≠ 0) (δ : ℝ) (hδ : 0 ≤ δ) (hδ1 : δ < 1)
    (hd : (H ^ 2 * unitFactorR u ^ 4 - 1) * ((|(f.rm : ℝ)| + majorE x y + |(z : ℝ) - f.zm|) * |(a : ℝ) / f.rminor| + |(b : ℝ)|) ≤ δ * |safetyE f x y z|) :
    Computable R L (1 - δ)⁻¹ f x y z := by
  refine ⟨hrm, hR, h0, ?_⟩
  have hH : 1 ≤ H := (hL 0 0).1
  have hE : 1 ≤ unitFactorR u := (fl_within R hu 1).1
  have h1 := approx_mul (minor_approx R L f x y z hu hL) (within_refl ((f.rminor : ℝ)⁻¹))
  have h2 := approx_fl R hu (x' := f.minor R L x y z / f.rminor) (by push_cast; rw [div_eq_mul_inv]; exact h1)
  have h3 := approx_mul h2 (within_refl (a : ℝ))
  have h4 := approx_fl R hu (x' := a * R.fl (f.minor R L x y z / f.rminor)) (by push_cast; rw [mul_comm]; exact h3)
  have h5 := approx_add h4 (approx_mono (approx_of_within (within_refl (b : ℝ))) h4.1)
  have h6 := approx_fl R hu (x' := R.fl (a * R.fl (f.minor R L x y z / f.rminor)) + b) (by push_cast; exact h5)
  have e1 : minorE f x y z * (f.rminor : ℝ)⁻¹ * a + b = safetyE f x y z := by
    rw [safetyE, hq]
    show _ = (a : ℝ) * (minorE f x y z / f.rminor) + b
    ring
  rw [e1, show H ^ 2 * unitFactorR u * 1 * unitFactorR u * 1 * unitFactorR u * unitFactorR u = H ^ 2 * unitFactorR u ^ 4 by ring,
    show (|(f.rm : ℝ)| + majorE x y + |(z : ℝ) - f.zm|) * |(f.rminor : ℝ)⁻¹| * |(a : ℝ)| = (|(f.rm : ℝ)| + majorE x y + |(z : ℝ) - f.zm|) * |(a : ℝ) / f.rminor| by
      rw [div_eq_mul_inv, abs_mul]; ring] at h6
  rw [hq]
  exact within_of_approx h6 h0 hd hδ hδ1

/-- **C138** With a constant safety factor and a `hypot` of at most one unit of error, the error of the field is at most 32 units of rounding of the
field, times the amplification. -/
theorem C138_constant (hu : 32 * u ≤ 1) (hL : AccurateHypot L (unitFactorR u)) (a : ℚ) (hq : f.q = .constant a ∨ f.q = .current a none) (ha : a ≠ 0)
    (hrm : f.rm ≠ 0) (hR : majorE x y ≠ 0) (hB : (f.sigmaB : ℝ) ^ 2 = 1) (hI : (f.sigmaI : ℝ) ^ 2 = 1) :
    fieldError (f.eval R L x y z) (f.real.eval x y z) ≤ 32 * u * amplification f x y z * fieldNorm (f.real.eval x y z) := by
  have hu1 : u < 1 := by linarith
  have h := C138_relative R L f x y z hu1 hL (constant_computable R L f x y z a hq ha hrm hR) hB hI
  have h2 := unitFactor_pow R hu1 16 (by norm_num; linarith)
  rw [show unitFactorR u ^ 2 * 1 * unitFactorR u ^ 14 = unitFactorR u ^ 16 by ring] at h
  refine le_trans h ?_
  have h3 : 0 ≤ amplification f x y z := by
    have hM : 0 ≤ majorE x y := hyp_nonneg _ _
    unfold amplification; positivity
  have h4 : 0 ≤ fieldNorm (f.real.eval x y z) := Real.sqrt_nonneg _
  push_cast at h2
  exact mul_le_mul_of_nonneg_right (mul_le_mul_of_nonneg_right (by linarith) h3) h4

/-! ### single components -/

/-- **C138** as stated fails: however the library computes `hypot`, there is a field and there are points, at every height, where the vertical
component is not zero and the computed one is. -/
theorem C138_refuted (hL : AccurateHypot L H) (z : ℚ) :
    ∃ f : AFieldR, f.real = mkAField 1 (L.hypot 1 1 : ℚ) 0 1 .ccw .ccw (.constant 1) ∧ Computable R L 1 f 1 1 z ∧
      (f.eval R L 1 1 z).2.2 = 0 ∧ (f.real.eval 1 1 z).2.2 ≠ 0 := by
  have hm : majorE 1 1 ≠ 0 := by
    intro h
    have := hyp_rat_zero (a := 1) (b := 1) h
    norm_num at this
  have hh : L.hypot 1 1 ≠ 0 := by
    intro h
    have h1 : (L.hypot 1 1 : ℝ) = 0 := by exact_mod_cast h
    exact hm ((within_eq_zero (hL 1 1)).1 h1)
  have hc := constant_computable R L ⟨1, L.hypot 1 1, 0, 1, 1, 1, .constant 1⟩ 1 1 z 1 (Or.inl rfl) one_ne_zero hh hm
  refine ⟨⟨1, L.hypot 1 1, 0, 1, 1, 1, .constant 1⟩, ?_, hc, ?_, ?_⟩
  · simp [AFieldR.real, mkAField, FieldSign.val, QProfileR.real]
  · simp only [AFieldR.eval, AFieldR.major, sub_self, fl_zero' R, zero_div, ite_self, mul_zero]
  · have := exact_field R L _ 1 1 z hc
    push_cast at this
    rw [this]
    simp only
    have hs : majorE 1 1 = Real.sqrt 2 := by rw [majorE, hyp]; norm_num
    have hq : safetyE ⟨1, L.hypot 1 1, 0, 1, 1, 1, .constant 1⟩ 1 1 z = 1 := by
      simp [safetyE, QProfileR.real, safety]
    have hne : (L.hypot 1 1 : ℝ) - Real.sqrt 2 ≠ 0 := by
      intro h
      exact irrational_sqrt_two ⟨L.hypot 1 1, by linarith⟩
    have hh' : (L.hypot 1 1 : ℝ) ≠ 0 := by exact_mod_cast hh
    rw [hs, hq]
    have h2 : Real.sqrt 2 ≠ 0 := by positivity
    simp only [Rat.cast_one, one_mul, mul_one]
    exact mul_ne_zero (mul_ne_zero hh' (one_div_ne_zero h2)) (div_ne_zero hne hh')

/-- There are libraries of any accuracy. -/
theorem accurate_library {K : ℝ} (hK : 1 < K) : ∃ L : MathLib, AccurateHypot L K ∧ AccurateSqrt L K := by
  choose h hh using fun p : ℚ × ℚ => exists_near hK (hyp_nonneg (p.1 : ℝ) (p.2 : ℝ))
  choose g hg using fun a : ℚ => exists_near hK (Real.sqrt_nonneg (a : ℝ))
  exact ⟨⟨fun a b => h (a, b), g, id, fun a _ => a⟩, fun a b => hh (a, b), fun a _ => hg a⟩

/-- The hypotheses of `C138_constant` can be met, in double precision. -/
example : ∃ L : MathLib, AccurateHypot L (unitFactorR (1 / 2 ^ 53)) := by
  obtain ⟨L, h, -⟩ := accurate_library (K := unitFactorR (1 / 2 ^ 53)) (by rw [unitFactorR]; norm_num)
  exact ⟨L, h⟩

/-- With exact arithmetic the field is that of the exact model, if `hypot` is exact where it is used. -/
example : (AFieldR.eval exactRnd ⟨fun a b => if b = 0 then |a| else if a = 0 then |b| else 0, id, id, fun a _ => a⟩
    ⟨5, 2, 0, 1, 1, 1, .constant 2⟩ 3 0 0) = (0, 10 / 3, -5 / 6) := by
  decide +kernel

end

end

end Softlib
