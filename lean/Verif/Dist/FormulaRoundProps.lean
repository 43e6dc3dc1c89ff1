/-
C142: accuracy of the analytical distribution functions in floating point.
-/
import Verif.Dist.FormulaRoundModel
import Verif.Dist.FormulaProps
import Verif.General.WithinProps
import Mathlib.Analysis.SpecialFunctions.Log.Basic
import Mathlib.Analysis.SpecialFunctions.Exp
import Mathlib.Analysis.Convex.SpecificFunctions.Basic

namespace Softlib
open Softlib.General Softlib.Magnetic Softlib.Dist

noncomputable section

/-! ### errors of logarithms -/

/-- Positive numbers the logarithms of which differ by at most `B`. -/
def LogNear (B x' x : ℝ) : Prop := 0 < x ∧ 0 < x' ∧ |Real.log x' - Real.log x| ≤ B

theorem logNear_iff {B x' x : ℝ} : LogNear B x' x ↔ 0 < x ∧ Real.exp (-B) * x ≤ x' ∧ x' ≤ Real.exp B * x := by
  constructor
  · rintro ⟨hx, hx', h⟩
    rw [abs_le] at h
    refine ⟨hx, ?_, ?_⟩
    · rw [← Real.log_le_log_iff (by positivity) hx', Real.log_mul (Real.exp_pos _).ne' hx.ne', Real.log_exp]; linarith
    · rw [← Real.log_le_log_iff hx' (by positivity), Real.log_mul (Real.exp_pos _).ne' hx.ne', Real.log_exp]; linarith
  · rintro ⟨hx, h1, h2⟩
    have hx' : 0 < x' := lt_of_lt_of_le (by positivity) h1
    rw [← Real.log_le_log_iff (by positivity) hx', Real.log_mul (Real.exp_pos _).ne' hx.ne', Real.log_exp] at h1
    rw [← Real.log_le_log_iff hx' (by positivity), Real.log_mul (Real.exp_pos _).ne' hx.ne', Real.log_exp] at h2
    exact ⟨hx, hx', abs_le.2 ⟨by linarith, by linarith⟩⟩

theorem logNear_refl {x : ℝ} (hx : 0 < x) : LogNear 0 x x := ⟨hx, hx, by simp⟩

theorem logNear_mono {B C x' x : ℝ} (h : LogNear B x' x) (hc : B ≤ C) : LogNear C x' x := ⟨h.1, h.2.1, le_trans h.2.2 hc⟩

theorem logNear_trans {B C x'' x' x : ℝ} (h : LogNear B x'' x') (k : LogNear C x' x) : LogNear (B + C) x'' x := by
  refine ⟨k.1, h.2.1, ?_⟩
  have := abs_sub_le (Real.log x'') (Real.log x') (Real.log x)
  linarith [h.2.2, k.2.2]

theorem logNear_mul {B C x' x y' y : ℝ} (h : LogNear B x' x) (k : LogNear C y' y) : LogNear (B + C) (x' * y') (x * y) := by
  refine ⟨mul_pos h.1 k.1, mul_pos h.2.1 k.2.1, ?_⟩
  rw [Real.log_mul h.2.1.ne' k.2.1.ne', Real.log_mul h.1.ne' k.1.ne']
  have h1 := abs_le.1 h.2.2
  have h2 := abs_le.1 k.2.2
  exact abs_le.2 ⟨by linarith, by linarith⟩

theorem logNear_div {B C x' x y' y : ℝ} (h : LogNear B x' x) (k : LogNear C y' y) : LogNear (B + C) (x' / y') (x / y) := by
  refine ⟨div_pos h.1 k.1, div_pos h.2.1 k.2.1, ?_⟩
  rw [Real.log_div h.2.1.ne' k.2.1.ne', Real.log_div h.1.ne' k.1.ne']
  have h1 := abs_le.1 h.2.2
  have h2 := abs_le.1 k.2.2
  exact abs_le.2 ⟨by linarith, by linarith⟩

theorem logNear_sqrt {B x' x : ℝ} (h : LogNear B x' x) : LogNear B (Real.sqrt x') (Real.sqrt x) := by
  refine ⟨Real.sqrt_pos.2 h.1, Real.sqrt_pos.2 h.2.1, ?_⟩
  rw [Real.log_sqrt h.2.1.le, Real.log_sqrt h.1.le, ← sub_div, abs_div, abs_of_pos (by norm_num : (0 : ℝ) < 2)]
  have := abs_nonneg (Real.log x' - Real.log x)
  linarith [h.2.2]

theorem logNear_add {B x' x y' y : ℝ} (h : LogNear B x' x) (k : LogNear B y' y) : LogNear B (x' + y') (x + y) := by
  rw [logNear_iff] at *
  exact ⟨add_pos h.1 k.1, by rw [mul_add]; linarith [h.2.1, k.2.1], by rw [mul_add]; linarith [h.2.2, k.2.2]⟩

theorem logNear_abs {B x' x : ℝ} (h : LogNear B x' x) (hB : B ≤ 1) : |x' - x| ≤ 2 * B * x := by
  set t := Real.log x' - Real.log x with ht
  have h0 : 0 ≤ B := le_trans (abs_nonneg _) h.2.2
  have e : x' = Real.exp t * x := by
    rw [ht, Real.exp_sub, Real.exp_log h.2.1, Real.exp_log h.1, div_mul_cancel₀ _ h.1.ne']
  have h1 := Real.abs_exp_sub_one_le (x := t) (le_trans h.2.2 hB)
  rw [e, show Real.exp t * x - x = (Real.exp t - 1) * x by ring, abs_mul, abs_of_pos h.1]
  have := h.2.2
  have hx := h.1
  apply mul_le_mul_of_nonneg_right _ hx.le
  linarith

theorem logNear_of_abs {d x' x : ℝ} (hx : 0 < x) (h : |x' - x| ≤ d * x) (hd : d ≤ 1 / 2) : LogNear (2 * d) x' x := by
  rw [abs_le] at h
  have hd0 : 0 ≤ d := by nlinarith [h.1, h.2]
  have hx' : 0 < x' := by nlinarith [h.1]
  refine ⟨hx, hx', ?_⟩
  rw [← Real.log_div hx'.ne' hx.ne']
  set r := x' / x with hr
  have hr0 : 0 < r := div_pos hx' hx
  have h1 : 1 - d ≤ r := by rw [hr, le_div_iff₀ hx]; linarith [h.1]
  have h2 : r ≤ 1 + d := by rw [hr, div_le_iff₀ hx]; linarith [h.2]
  have u1 := Real.log_le_sub_one_of_pos hr0
  have l1 := Real.one_sub_inv_le_log_of_pos hr0
  have l2 : r⁻¹ ≤ 1 + 2 * d := by
    rw [inv_le_comm₀ hr0 (by linarith)]
    refine le_trans ?_ h1
    rw [inv_eq_one_div, div_le_iff₀ (by linarith)]
    nlinarith
  exact abs_le.2 ⟨by linarith, by linarith⟩

theorem logNear_exp (x' x : ℝ) : LogNear |x' - x| (Real.exp x') (Real.exp x) :=
  ⟨Real.exp_pos _, Real.exp_pos _, by rw [Real.log_exp, Real.log_exp]⟩

section
variable {u : ℚ} (R : Rnd u)

theorem rnd_unit_nonneg (R : Rnd u) : 0 ≤ (u : ℝ) := by
  have := R.rel 1
  rw [abs_one, mul_one] at this
  have : 0 ≤ u := le_trans (abs_nonneg _) this
  exact_mod_cast this

theorem fl_relR (x : ℚ) : |(R.fl x : ℝ) - x| ≤ u * |(x : ℝ)| := by exact_mod_cast R.rel x

/-- One rounding. -/
theorem logNear_fl (hu : (u : ℝ) ≤ 1 / 2) {B x : ℝ} {x' : ℚ} (h : LogNear B (x' : ℝ) x) : LogNear (B + 2 * u) (R.fl x' : ℝ) x := by
  have h1 := fl_relR R x'
  rw [abs_of_pos h.2.1] at h1
  have := logNear_trans (logNear_of_abs h.2.1 h1 hu) h
  rwa [add_comm] at this

/-- One rounding of a number with an absolute error. -/
theorem fl_near_abs {x : ℝ} {x' : ℚ} {d A : ℝ} (h : |(x' : ℝ) - x| ≤ d) (hA : |x| ≤ A) : |(R.fl x' : ℝ) - x| ≤ d + u * (A + d) := by
  have h1 := fl_relR R x'
  have h2 : |(x' : ℝ)| ≤ A + d := by
    have := abs_add_le ((x' : ℝ) - x) x
    rw [sub_add_cancel] at this
    linarith
  have h3 := mul_le_mul_of_nonneg_left h2 (rnd_unit_nonneg R)
  have := abs_sub_le (R.fl x' : ℝ) x' x
  linarith

/-- A library with relative errors of one and two units of rounding. -/
structure GoodLib (L : MathLib) (u : ℚ) : Prop where
  sqrt : ∀ x : ℚ, 0 < x → |(L.sqrt x : ℝ) - Real.sqrt x| ≤ u * Real.sqrt x
  exp : ∀ x : ℚ, |(L.exp x : ℝ) - Real.exp x| ≤ 2 * u * Real.exp x

/-- There is one. -/
theorem goodLib_exists (hu : 0 < (u : ℝ)) : ∃ L : MathLib, GoodLib L u := by
  have key : ∀ (c : ℝ), 0 < c → ∀ y : ℝ, 0 < y → ∃ q : ℚ, |(q : ℝ) - y| ≤ c * y := by
    intro c hc y hy
    obtain ⟨q, h1, h2⟩ := exists_rat_btwn (show y < y + c * y by nlinarith [mul_pos hc hy])
    exact ⟨q, by rw [abs_of_pos (by linarith)]; linarith⟩
  choose e he using fun x : ℚ => key (2 * u) (by linarith) (Real.exp x) (Real.exp_pos _)
  have hs : ∀ x : ℚ, ∃ q : ℚ, 0 < x → |(q : ℝ) - Real.sqrt x| ≤ u * Real.sqrt x := by
    intro x
    by_cases hx : 0 < x
    · obtain ⟨q, hq⟩ := key u hu (Real.sqrt x) (Real.sqrt_pos.2 (by exact_mod_cast hx))
      exact ⟨q, fun _ => hq⟩
    · exact ⟨0, fun h => absurd h hx⟩
  choose s hs' using hs
  exact ⟨⟨fun _ _ => 0, s, e, fun _ _ => 0⟩, hs', he⟩

theorem lib_sqrt {L : MathLib} (hL : GoodLib L u) (hu : (u : ℝ) ≤ 1 / 4) {B x : ℝ} {x' : ℚ} (h : LogNear B (x' : ℝ) x) :
    LogNear (B + 2 * u) (L.sqrt x' : ℝ) (Real.sqrt x) := by
  have hx : 0 < x' := by exact_mod_cast h.2.1
  have := logNear_trans (logNear_of_abs (Real.sqrt_pos.2 h.2.1) (hL.sqrt x' hx) (by linarith)) (logNear_sqrt h)
  rwa [add_comm] at this

theorem lib_exp {L : MathLib} (hL : GoodLib L u) (hu : (u : ℝ) ≤ 1 / 4) {d x : ℝ} {x' : ℚ} (h : |(x' : ℝ) - x| ≤ d) :
    LogNear (d + 4 * u) (L.exp x' : ℝ) (Real.exp x) := by
  have h1 := logNear_of_abs (Real.exp_pos (x' : ℝ)) (hL.exp x') (by linarith)
  have h2 := logNear_trans h1 (logNear_exp (x' : ℝ) x)
  exact logNear_mono h2 (by linarith)

theorem rdiv_some {x y : ℚ} (hy : y ≠ 0) : rdiv R x y = some (R.fl (x / y)) := if_neg hy

/-! ### exponential pitch distribution -/

/-- **C142** The exponential pitch distribution. -/
theorem C142_pitch {L : MathLib} (hL : GoodLib L u) (hu : (u : ℝ) ≤ 1 / 4) (C p xi : ℚ) :
    ∃ f, (MomDist.expPitch C).eval p xi = some f ∧ 0 < f ∧ 0 < (expPitchR R L C xi : ℝ) ∧
      |Real.log (expPitchR R L C xi : ℝ) - Real.log f| ≤ 4 * u * (1 + |(C : ℝ) * xi|) := by
  have h1 := fl_relR R (C * |xi|)
  push_cast at h1
  have e : abs ((C : ℝ) * |(xi : ℝ)|) = |(C : ℝ) * xi| := by rw [abs_mul, abs_abs, ← abs_mul]
  rw [e] at h1
  have h2 := lib_exp hL hu (x := (C : ℝ) * |(xi : ℝ)|) h1
  refine ⟨_, rfl, Real.exp_pos _, h2.2.1, le_trans h2.2.2 ?_⟩
  have := mul_nonneg (rnd_unit_nonneg R) (abs_nonneg ((C : ℝ) * xi))
  linarith

/-! ### Connor-Hastie distribution -/

/-- The coefficient. -/
theorem hastieD_near (hu : (u : ℝ) ≤ 1 / 4) {EHat Zeff : ℚ} (hE : -1 < EHat) (hZ : -1 < Zeff) :
    ∃ D, hastieDR R EHat Zeff = some D ∧ LogNear (8 * u) (D : ℝ) ((EHat + 1) / (2 * (Zeff + 1))) := by
  have hE' : (0 : ℝ) < EHat + 1 := by have : (-1 : ℝ) < EHat := by exact_mod_cast hE
                                      linarith
  have hZ' : (0 : ℝ) < Zeff + 1 := by have : (-1 : ℝ) < Zeff := by exact_mod_cast hZ
                                      linarith
  have h1 := logNear_fl R (by linarith) (x' := EHat + 1) (by push_cast; exact logNear_refl hE')
  have h2 := logNear_fl R (by linarith) (x' := Zeff + 1) (by push_cast; exact logNear_refl hZ')
  have h3 := logNear_fl R (by linarith) (x' := 2 * R.fl (Zeff + 1)) (by push_cast; exact logNear_mul (logNear_refl (by norm_num : (0 : ℝ) < 2)) h2)
  have hne : R.fl (2 * R.fl (Zeff + 1)) ≠ 0 := by
    have := h3.2.1
    intro h
    rw [h] at this
    simp at this
  have h4 := logNear_fl R (by linarith) (x' := R.fl (EHat + 1) / R.fl (2 * R.fl (Zeff + 1))) (by push_cast; exact logNear_div h1 h3)
  exact ⟨_, rdiv_some R hne, logNear_mono h4 (by linarith)⟩

/-- The exponent. -/
theorem hastieExp_near (hu : (u : ℝ) ≤ 1 / 100) {D' p xi : ℚ} {D : ℝ} (hD : LogNear (8 * u) (D' : ℝ) D) (hp : 0 < p) (hx : xi ≠ 0) (hx1 : |xi| ≤ 1) :
    ∃ e, hastieExpR R D' p xi = some e ∧ |(e : ℝ) - (-D * p * (1 - xi * xi) / |(xi : ℝ)|)| ≤ 30 * u * (D * p / |(xi : ℝ)|) := by
  have hu0 := rnd_unit_nonneg R
  have hp' : (0 : ℝ) < p := by exact_mod_cast hp
  have hxp : 0 < |(xi : ℝ)| := abs_pos.2 (by exact_mod_cast hx)
  have hx1' : |(xi : ℝ)| ≤ 1 := by exact_mod_cast hx1
  have hsq : (xi : ℝ) * xi ≤ 1 := by
    have := abs_mul_abs_self (xi : ℝ)
    nlinarith [abs_nonneg (xi : ℝ)]
  have hsq0 : 0 ≤ (xi : ℝ) * xi := mul_self_nonneg _
  -- D p
  have h1 := logNear_fl R (by linarith) (x' := D' * p) (by push_cast; exact logNear_mul hD (logNear_refl hp'))
  have h1a := logNear_abs h1 (by linarith)
  -- the sign
  have hneg : ∀ x : ℚ, |(R.fl x : ℝ) - x| ≤ u * |(x : ℝ)| := fl_relR R
  have hm := fl_relR R (-D' * p)
  push_cast at hm
  have hD0 := hD.1
  have hDp : 0 < D * p := mul_pos hD0 hp'
  have hDa := logNear_abs (logNear_mul hD (logNear_refl hp')) (by linarith)
  have hDpos : (0 : ℝ) < D' * p := mul_pos hD.2.1 hp'
  have k1 : |(R.fl (-D' * p) : ℝ) - (-D * p)| ≤ 18 * u * (D * p) := by
    have a1 : |-(D' : ℝ) * p| = D' * p := by rw [neg_mul, abs_neg, abs_of_pos hDpos]
    rw [a1] at hm
    have a2 : (D' : ℝ) * p ≤ D * p + 2 * (8 * u + 0) * (D * p) := by have := (abs_le.1 hDa).2; linarith
    have a3 := abs_sub_le (R.fl (-D' * p) : ℝ) (-D' * p) (-D * p)
    have a4 : |-(D' : ℝ) * p - -D * p| = |(D' : ℝ) * p - D * p| := by rw [← abs_neg]; congr 1; ring
    rw [a4] at a3
    have a5 : (u : ℝ) * (D' * p) ≤ u * (2 * (D * p)) := by
      apply mul_le_mul_of_nonneg_left _ hu0
      nlinarith
    nlinarith
  -- 1 - xi^2
  have k2 : |(R.fl (1 - R.fl (xi * xi)) : ℝ) - (1 - xi * xi)| ≤ 3 * u := by
    have b1 := fl_relR R (xi * xi)
    push_cast at b1
    rw [abs_of_nonneg hsq0] at b1
    have b2 : |((1 - R.fl (xi * xi) : ℚ) : ℝ) - (1 - xi * xi)| ≤ u := by
      push_cast
      rw [show (1 : ℝ) - R.fl (xi * xi) - (1 - xi * xi) = -((R.fl (xi * xi) : ℝ) - xi * xi) by ring, abs_neg]
      nlinarith
    have b3 := fl_near_abs R b2 (A := 1) (by rw [abs_le]; constructor <;> linarith)
    nlinarith
  -- the product
  have k3 : |((R.fl (-D' * p) * R.fl (1 - R.fl (xi * xi)) : ℚ) : ℝ) - (-D * p * (1 - xi * xi))| ≤ 22 * u * (D * p) := by
    push_cast
    set a := (R.fl (-D' * p) : ℝ)
    set w := (R.fl (1 - R.fl (xi * xi)) : ℝ)
    have c1 : a * w - -D * p * (1 - xi * xi) = (a - -D * p) * w + (-D * p) * (w - (1 - xi * xi)) := by ring
    rw [c1]
    have c2 : |w| ≤ 1 + 3 * u := by
      have := abs_add_le (w - (1 - xi * xi)) ((1 : ℝ) - xi * xi)
      rw [sub_add_cancel] at this
      have h' : |(1 : ℝ) - xi * xi| ≤ 1 := by rw [abs_le]; constructor <;> linarith
      linarith
    have c3 := abs_add_le ((a - -D * p) * w) ((-D * p) * (w - (1 - xi * xi)))
    rw [abs_mul, abs_mul] at c3
    have c4 : |-D * (p : ℝ)| = D * p := by rw [neg_mul, abs_neg, abs_of_pos hDp]
    rw [c4] at c3
    have c5 : |a - -D * p| * |w| ≤ 18 * u * (D * p) * (1 + 3 * u) := mul_le_mul k1 c2 (abs_nonneg _) (by positivity)
    have c6 : D * p * |w - (1 - xi * xi)| ≤ D * p * (3 * u) := mul_le_mul_of_nonneg_left k2 hDp.le
    have c7 : 18 * u * (D * p) * (1 + 3 * u) ≤ 19 * u * (D * p) := by
      have : 0 ≤ (u : ℝ) * (D * p) := mul_nonneg hu0 hDp.le
      nlinarith
    linarith
  have hw : |-D * p * (1 - xi * xi)| ≤ D * p := by
    rw [abs_mul]
    have c4 : |-D * (p : ℝ)| = D * p := by rw [neg_mul, abs_neg, abs_of_pos hDp]
    rw [c4]
    have h' : |(1 : ℝ) - xi * xi| ≤ 1 := by rw [abs_le]; constructor <;> linarith
    nlinarith
  have hud : 0 ≤ (u : ℝ) * (D * p) := mul_nonneg hu0 hDp.le
  have k4 : |(R.fl (R.fl (-D' * p) * R.fl (1 - R.fl (xi * xi))) : ℝ) - (-D * p * (1 - xi * xi))| ≤ 24 * u * (D * p) := by
    refine le_trans (fl_near_abs R k3 hw) ?_
    nlinarith
  -- the quotient
  have k5 : |((R.fl (R.fl (-D' * p) * R.fl (1 - R.fl (xi * xi))) / |xi| : ℚ) : ℝ) - (-D * p * (1 - xi * xi) / |(xi : ℝ)|)| ≤
      24 * u * (D * p / |(xi : ℝ)|) := by
    push_cast
    rw [← sub_div, abs_div, abs_abs, ← mul_div_assoc]
    exact div_le_div_of_nonneg_right k4 hxp.le
  have hS : 0 < D * p / |(xi : ℝ)| := div_pos hDp hxp
  have k6 := fl_near_abs R k5 (A := D * p / |(xi : ℝ)|) (by rw [abs_div, abs_abs]; exact div_le_div_of_nonneg_right hw hxp.le)
  refine ⟨_, rdiv_some R (by simpa using hx), le_trans k6 ?_⟩
  have : 0 ≤ (u : ℝ) * (D * p / |(xi : ℝ)|) := mul_nonneg hu0 hS.le
  nlinarith

/-- The factor in front of the exponential. -/
theorem hastieFront_near (hu : (u : ℝ) ≤ 1 / 4) {p xi : ℚ} (hp : 0 < p) (hx : xi ≠ 0) :
    ∃ f, rdiv R 1 (R.fl (p * |xi|)) = some f ∧ LogNear (4 * u) (f : ℝ) (1 / (p * |(xi : ℝ)|)) := by
  have hp' : (0 : ℝ) < p := by exact_mod_cast hp
  have hxp : 0 < |(xi : ℝ)| := abs_pos.2 (by exact_mod_cast hx)
  have h1 := logNear_fl R (by linarith) (x' := p * |xi|) (by push_cast; exact logNear_refl (mul_pos hp' hxp))
  have hne : R.fl (p * |xi|) ≠ 0 := by
    have := h1.2.1
    intro h
    rw [h] at this
    simp at this
  have h2 := logNear_fl R (by linarith) (x' := 1 / R.fl (p * |xi|)) (by push_cast; exact logNear_div (logNear_refl one_pos) h1)
  exact ⟨_, rdiv_some R hne, logNear_mono h2 (by linarith)⟩

/-- **C142** The Connor-Hastie distribution: the error grows with `D p / |xi|`, not with the exponent. -/
theorem C142_hastie {L : MathLib} (hL : GoodLib L u) (hu : (u : ℝ) ≤ 1 / 100) (EHat Zeff pMax deltaP p xi : ℚ) (hE : -1 < EHat) (hZ : -1 < Zeff)
    (hp : 0 < p) (hx : xi ≠ 0) (hx1 : |xi| ≤ 1) :
    ∃ D v f, hastieDR R EHat Zeff = some D ∧ hastieR R L pMax deltaP D p xi = some v ∧
      (MomDist.mkConnorHastie EHat Zeff pMax deltaP).eval p xi = some f ∧ 0 < f ∧ 0 < (v : ℝ) ∧
      |Real.log (v : ℝ) - Real.log f| ≤ 40 * u *
        (1 + (EHat + 1) / (2 * (Zeff + 1)) * p / |(xi : ℝ)| + if deltaP = 0 ∨ p < pMax then 0 else (((p : ℝ) - pMax) / deltaP) ^ 2) := by
  have hu0 := rnd_unit_nonneg R
  have hp' : (0 : ℝ) < p := by exact_mod_cast hp
  have hxp : 0 < |(xi : ℝ)| := abs_pos.2 (by exact_mod_cast hx)
  obtain ⟨D', hD1, hD2⟩ := hastieD_near R (by linarith) hE hZ
  obtain ⟨e, he1, he2⟩ := hastieExp_near R hu hD2 hp hx hx1
  obtain ⟨f, hf1, hf2⟩ := hastieFront_near R (by linarith) hp hx
  have hpx : (p : ℝ) * |(xi : ℝ)| ≠ 0 := (mul_pos hp' hxp).ne'
  have hform := C64_connorHastie_formula (EHat : ℝ) Zeff pMax deltaP p xi _ _ rfl rfl hpx
  set D := ((EHat : ℝ) + 1) / (2 * (Zeff + 1)) with hDdef
  have hexp : -D * ((p : ℝ) ^ 2 * (1 - (xi : ℝ) ^ 2)) / (p * |(xi : ℝ)|) = -D * p * (1 - xi * xi) / |(xi : ℝ)| := by
    rw [div_eq_div_iff hpx hxp.ne']; ring
  rw [hexp] at hform
  have hS : 0 < D * p / |(xi : ℝ)| := div_pos (mul_pos hD2.1 hp') hxp
  have huS : 0 ≤ (u : ℝ) * (D * p / |(xi : ℝ)|) := mul_nonneg hu0 hS.le
  by_cases hc : deltaP = 0 ∨ p < pMax
  · have hc' : (deltaP : ℝ) = 0 ∨ (p : ℝ) < pMax := by
      rcases hc with h | h
      · exact Or.inl (by exact_mod_cast h)
      · exact Or.inr (by exact_mod_cast h)
    have h3 := lib_exp hL (by linarith) he2
    have h4 := logNear_fl R (by linarith) (x' := f * L.exp e) (by push_cast; exact logNear_mul hf2 h3)
    refine ⟨D', R.fl (f * L.exp e), _, hD1, ?_, hform.1 hc', h4.1, h4.2.1, le_trans h4.2.2 ?_⟩
    · simp only [hastieR, if_pos hc, hf1, he1, Option.bind_some, Option.map_some]
    · rw [if_pos hc]; linarith
  · have hc1 : deltaP ≠ 0 := fun h => hc (Or.inl h)
    have hc2 : pMax ≤ p := not_lt.1 fun h => hc (Or.inr h)
    have hd' : (deltaP : ℝ) ≠ 0 := by exact_mod_cast hc1
    have hq' : (pMax : ℝ) ≤ p := by exact_mod_cast hc2
    set del := ((p : ℝ) - pMax) / deltaP with hdel
    -- the cut-off
    have g1 : |((R.fl (p - pMax) / deltaP : ℚ) : ℝ) - del| ≤ u * |del| := by
      push_cast
      rw [hdel, ← sub_div, abs_div, abs_div, ← mul_div_assoc]
      have := fl_relR R (p - pMax)
      push_cast at this
      exact div_le_div_of_nonneg_right this (abs_nonneg _)
    have g2 := fl_near_abs R g1 (le_refl _)
    set w := R.fl (R.fl (p - pMax) / deltaP) with hw
    have g3 : |(w : ℝ) - del| ≤ 3 * u * |del| := by
      refine le_trans g2 ?_
      have := mul_nonneg hu0 (abs_nonneg del)
      nlinarith
    have g4 : |((w * w : ℚ) : ℝ) - del ^ 2| ≤ 7 * u * del ^ 2 := by
      push_cast
      rw [show (w : ℝ) * w - del ^ 2 = (w - del) * ((w - del) + 2 * del) by ring, abs_mul]
      have : |(w : ℝ) - del + 2 * del| ≤ 3 * u * |del| + 2 * |del| := by
        refine le_trans (abs_add_le _ _) ?_
        rw [abs_mul, abs_of_pos (by norm_num : (0 : ℝ) < 2)]
        linarith
      refine le_trans (mul_le_mul g3 this (abs_nonneg _) (by positivity)) ?_
      rw [show 3 * (u : ℝ) * |del| * (3 * u * |del| + 2 * |del|) = (9 * u ^ 2 + 6 * u) * (|del| * |del|) by ring, abs_mul_abs_self, ← pow_two]
      have := mul_nonneg hu0 (sq_nonneg del)
      nlinarith
    have g5 := fl_near_abs R g4 (le_of_eq (abs_of_nonneg (sq_nonneg del)))
    have hud : 0 ≤ (u : ℝ) * del ^ 2 := mul_nonneg hu0 (sq_nonneg del)
    set E := -D * p * (1 - xi * xi) / |(xi : ℝ)| with hEdef
    have hEabs : |E| ≤ D * p / |(xi : ℝ)| := by
      rw [hEdef, abs_div, abs_abs]
      apply div_le_div_of_nonneg_right _ hxp.le
      rw [abs_mul, neg_mul, abs_neg, abs_of_pos (mul_pos hD2.1 hp')]
      have hsq : (xi : ℝ) * xi ≤ 1 := by
        have hx1' : |(xi : ℝ)| ≤ 1 := by exact_mod_cast hx1
        have := abs_mul_abs_self (xi : ℝ)
        nlinarith [abs_nonneg (xi : ℝ)]
      have h' : |(1 : ℝ) - xi * xi| ≤ 1 := by rw [abs_le]; constructor <;> linarith [mul_self_nonneg (xi : ℝ)]
      have := mul_pos hD2.1 hp'
      nlinarith
    have g6 : |((e - R.fl (w * w) : ℚ) : ℝ) - (E - del ^ 2)| ≤ 30 * u * (D * p / |(xi : ℝ)|) + 9 * u * del ^ 2 := by
      push_cast
      rw [show (e : ℝ) - R.fl (w * w) - (E - del ^ 2) = (e - E) + -((R.fl (w * w) : ℝ) - del ^ 2) by ring]
      refine le_trans (abs_add_le _ _) ?_
      rw [abs_neg]
      nlinarith
    have g7 := fl_near_abs R g6 (A := D * p / |(xi : ℝ)| + del ^ 2) (by
      refine le_trans (abs_sub _ _) ?_
      rw [abs_of_nonneg (sq_nonneg del)]
      linarith)
    have g8 : |(R.fl (e - R.fl (w * w)) : ℝ) - (E - del ^ 2)| ≤ 36 * u * (D * p / |(xi : ℝ)| + del ^ 2) := by
      refine le_trans g7 ?_
      nlinarith
    have h3 := lib_exp hL (by linarith) g8
    have h4 := logNear_fl R (by linarith) (x' := f * L.exp (R.fl (e - R.fl (w * w)))) (by push_cast; exact logNear_mul hf2 h3)
    have hval : 1 / ((p : ℝ) * |(xi : ℝ)|) * Real.exp E * Real.exp (-del ^ 2) = 1 / (p * |(xi : ℝ)|) * Real.exp (E - del ^ 2) := by
      rw [mul_assoc, ← Real.exp_add]; congr 2
    have hf := hform.2 hd' hq'
    rw [hval] at hf
    refine ⟨D', R.fl (f * L.exp (R.fl (e - R.fl (w * w)))), _, hD1, ?_, hf, h4.1, h4.2.1, le_trans h4.2.2 ?_⟩
    · simp only [hastieR, if_neg hc, hf1, he1, Option.bind_some, Option.map_some, rdiv_some R hc1, hw]
    · rw [if_neg hc]; nlinarith

/-! ### avalanche distribution -/

theorem ne_zero_of_near {B x : ℝ} {q : ℚ} (h : LogNear B (q : ℝ) x) : q ≠ 0 := by
  intro e
  have := h.2.1
  rw [e] at this
  simp at this

/-- The difference in the denominator. -/
theorem one_sub_exp_near (hu0 : 0 ≤ (u : ℝ)) (hu : (u : ℝ) ≤ 1 / 200) {A e : ℝ} (hA : 0 < A) (h : LogNear (60 * u * A + 4 * u) e (Real.exp (-2 * A))) :
    |(1 - e) - (1 - Real.exp (-2 * A))| ≤ (60 * u + 4 * u / A) * (1 - Real.exp (-2 * A)) := by
  set s := 2 * A with hs
  have hs0 : 0 < s := by linarith
  set η := 60 * u * A + 4 * (u : ℝ) with hη
  have hη0 : 0 ≤ η := by positivity
  have hEs : Real.exp (-2 * A) = (Real.exp s)⁻¹ := by rw [← Real.exp_neg]; congr 1; rw [hs]; ring
  rw [logNear_iff] at h
  obtain ⟨_, h1, h2⟩ := h
  have hconv : Real.exp (30 * u * s) ≤ 1 + 30 * u * (Real.exp s - 1) := by
    have := convexOn_exp.2 (Set.mem_univ (0 : ℝ)) (Set.mem_univ s) (show 0 ≤ 1 - 30 * (u : ℝ) by linarith) (show 0 ≤ 30 * (u : ℝ) by positivity) (by ring)
    simp only [smul_eq_mul, mul_zero, zero_add, Real.exp_zero, mul_one] at this
    linarith
  have h4 : Real.exp (4 * u) ≤ 1 + 8 * u := by
    have := Real.abs_exp_sub_one_le (x := 4 * (u : ℝ)) (by rw [abs_of_nonneg (by positivity)]; linarith)
    rw [abs_of_nonneg (by positivity : 0 ≤ 4 * (u : ℝ))] at this
    linarith [(abs_le.1 this).2]
  have hes : s + 1 ≤ Real.exp s := Real.add_one_le_exp s
  have hE : 0 < Real.exp s := Real.exp_pos s
  -- the upper bound
  have h5 : Real.exp η ≤ 1 + (60 * u + 4 * u / A) * (Real.exp s - 1) := by
    have e1 : Real.exp η = Real.exp (4 * u) * Real.exp (30 * u * s) := by rw [← Real.exp_add]; congr 1; rw [hη, hs]; ring
    rw [e1]
    have a1 : Real.exp (4 * u) * Real.exp (30 * u * s) ≤ (1 + 8 * u) * (1 + 30 * u * (Real.exp s - 1)) :=
      mul_le_mul h4 hconv (Real.exp_pos _).le (by positivity)
    have a2 : 8 * (u : ℝ) ≤ 4 * u / A * (Real.exp s - 1) := by
      rw [div_mul_eq_mul_div, le_div_iff₀ hA]
      have := mul_le_mul_of_nonneg_left (show s ≤ Real.exp s - 1 by linarith) (show 0 ≤ 4 * (u : ℝ) by positivity)
      rw [hs] at this ⊢
      linarith
    have a3 : (1 + 8 * (u : ℝ)) * (30 * u * (Real.exp s - 1)) ≤ 2 * (30 * u * (Real.exp s - 1)) := by
      apply mul_le_mul_of_nonneg_right (by linarith)
      have : 0 ≤ Real.exp s - 1 := by linarith
      positivity
    nlinarith
  have h6 : 2 - Real.exp η ≤ Real.exp (-η) := by
    have k := Real.add_one_le_exp (-η)
    have k2 : Real.exp (-η) * Real.exp η = 1 := by rw [← Real.exp_add]; simp
    have k3 := Real.exp_pos η
    have k4 := Real.exp_pos (-η)
    nlinarith [sq_nonneg (Real.exp η - 1), sq_nonneg (Real.exp (-η) - 1), sq_nonneg (Real.exp η - Real.exp (-η))]
  have hinv : (Real.exp s)⁻¹ * Real.exp s = 1 := inv_mul_cancel₀ hE.ne'
  have hi : 0 < (Real.exp s)⁻¹ := inv_pos.2 hE
  rw [hEs] at h1 h2 ⊢
  generalize (60 * (u : ℝ) + 4 * u / A) = δ at *
  have m1 := mul_le_mul_of_nonneg_right h5 hi.le
  have m2 := mul_le_mul_of_nonneg_right h6 hi.le
  have m3 : (1 + δ * (Real.exp s - 1)) * (Real.exp s)⁻¹ = (Real.exp s)⁻¹ + δ * (1 - (Real.exp s)⁻¹) := by
    have : (Real.exp s - 1) * (Real.exp s)⁻¹ = 1 - (Real.exp s)⁻¹ := by rw [sub_mul, mul_inv_cancel₀ hE.ne', one_mul]
    rw [add_mul, one_mul, mul_assoc, this]
  rw [abs_le]
  constructor
  · nlinarith
  · nlinarith

set_option maxHeartbeats 1000000 in
/-- **C142** The avalanche distribution: the error grows with the exponent, and with the inverse of `A`. -/
theorem C142_avalanche {L : MathLib} (hL : GoodLib L u) {pi : ℚ} (hpi : |(pi : ℝ) - Real.pi| ≤ u * Real.pi) (EHat lnLambda Zeff p xi : ℚ)
    (hE : -1 < EHat) (hZ : -1 < Zeff) (hl : 0 < lnLambda) (hp : p ≠ 0) (hx1 : |xi| ≤ 1) (g g0 A X : ℝ) (hg : g = Real.sqrt (1 + (p : ℝ) ^ 2))
    (hg0 : g0 = lnLambda * Real.sqrt (Zeff + 5)) (hA : A = (EHat + 1) / (Zeff + 1) * g) (hX : X = g / g0 + A * (1 - |(xi : ℝ)|))
    (hu : 200 * u * (1 + 1 / A) ≤ 1) :
    ∃ Ac v f, avalancheAcR R EHat Zeff = some Ac ∧ avalancheR R L pi Ac (avalancheG0R R L lnLambda Zeff) p xi = some v ∧
      (MomDist.mkAvalanche EHat lnLambda Zeff).eval p xi = some f ∧ 0 < f ∧ 0 < (v : ℝ) ∧
      |Real.log (v : ℝ) - Real.log f| ≤ 200 * u * (1 + X + 1 / A) := by
  have hu0 := rnd_unit_nonneg R
  have hE' : (0 : ℝ) < EHat + 1 := by have : (-1 : ℝ) < EHat := by exact_mod_cast hE
                                      linarith
  have hZ' : (0 : ℝ) < Zeff + 1 := by have : (-1 : ℝ) < Zeff := by exact_mod_cast hZ
                                      linarith
  have hl' : (0 : ℝ) < lnLambda := by exact_mod_cast hl
  have hp' : (p : ℝ) ≠ 0 := by exact_mod_cast hp
  have hx1' : |(xi : ℝ)| ≤ 1 := by exact_mod_cast hx1
  have hgp : 0 < g := by rw [hg]; positivity
  have hA0 : 0 < A := by rw [hA]; positivity
  have hg0p : 0 < g0 := by rw [hg0]; have : (0 : ℝ) < Zeff + 5 := by linarith
                           positivity
  have hinvA : 0 < 1 / A := by positivity
  have huA : 0 ≤ (u : ℝ) * (1 / A) := mul_nonneg hu0 hinvA.le
  have hus : (u : ℝ) ≤ 1 / 200 := by nlinarith
  have hu4 : (u : ℝ) ≤ 1 / 4 := by linarith
  have hu2 : (u : ℝ) ≤ 1 / 2 := by linarith
  -- the constants
  have a1 := logNear_fl R hu2 (x' := EHat + 1) (by push_cast; exact logNear_refl hE')
  have a2 := logNear_fl R hu2 (x' := Zeff + 1) (by push_cast; exact logNear_refl hZ')
  have a3 := logNear_fl R hu2 (x' := R.fl (EHat + 1) / R.fl (Zeff + 1)) (by push_cast; exact logNear_div a1 a2)
  have hAc : avalancheAcR R EHat Zeff = some (R.fl (R.fl (EHat + 1) / R.fl (Zeff + 1))) := rdiv_some R (ne_zero_of_near a2)
  set Ac := R.fl (R.fl (EHat + 1) / R.fl (Zeff + 1))
  have b1 := logNear_fl R hu2 (x' := Zeff + 5) (by push_cast; exact logNear_refl (show (0 : ℝ) < Zeff + 5 by linarith))
  have b2 := lib_sqrt hL hu4 b1
  have b3 : LogNear _ (avalancheG0R R L lnLambda Zeff : ℝ) _ :=
    logNear_fl R hu2 (x' := lnLambda * L.sqrt (R.fl (Zeff + 5))) (by push_cast; exact logNear_mul (logNear_refl hl') b2)
  rw [← hg0] at b3
  set g0' := avalancheG0R R L lnLambda Zeff
  -- the Lorentz factor
  have hpp : 0 < (p : ℝ) * p := mul_self_pos.2 hp'
  have c1 := logNear_fl R hu2 (x' := p * p) (by push_cast; exact logNear_refl hpp)
  have c2 := logNear_fl R hu2 (x' := R.fl (p * p) + 1) (by
    push_cast
    exact logNear_add c1 (logNear_mono (logNear_refl one_pos) (by linarith)))
  have c3 := lib_sqrt hL hu4 c2
  rw [show Real.sqrt ((p : ℝ) * p + 1) = g by rw [hg]; congr 1; ring] at c3
  set p2 := R.fl (p * p)
  set gmm := L.sqrt (R.fl (p2 + 1))
  have d1 := logNear_fl R hu2 (x' := Ac * gmm) (by push_cast; exact logNear_mul a3 c3)
  rw [← hA] at d1
  set A' := R.fl (Ac * gmm)
  -- the factor in front
  have e1 : LogNear _ (massR R : ℝ) electronMass := logNear_fl R hu2 (x' := 910938356 / 10 ^ 39) (by
    rw [show ((910938356 / 10 ^ 39 : ℚ) : ℝ) = electronMass by unfold electronMass; push_cast; norm_num]
    exact logNear_refl (by unfold electronMass; norm_num))
  have e2 : LogNear _ (lightR R : ℝ) lightSpeed := logNear_fl R hu2 (x' := 299792458) (by
    rw [show ((299792458 : ℚ) : ℝ) = lightSpeed by unfold lightSpeed; norm_num]
    exact logNear_refl (by unfold lightSpeed; norm_num))
  have e3 := logNear_fl R hu2 (x' := massR R * lightR R) (by push_cast; exact logNear_mul e1 e2)
  have e4 := logNear_fl R hu2 (x' := R.fl (massR R * lightR R) * A') (by push_cast; exact logNear_mul e3 d1)
  have e5 := logNear_of_abs Real.pi_pos hpi hu2
  have e6 := logNear_fl R hu2 (x' := 2 * pi) (by push_cast; exact logNear_mul (logNear_refl (by norm_num : (0 : ℝ) < 2)) e5)
  have e7 := logNear_fl R hu2 (x' := R.fl (2 * pi) * g0') (by push_cast; exact logNear_mul e6 b3)
  have e8 := logNear_fl R hu2 (x' := R.fl (R.fl (2 * pi) * g0') * p2) (by push_cast; exact logNear_mul e7 c1)
  have e9 := logNear_fl R hu2 (x' := R.fl (R.fl (massR R * lightR R) * A') / R.fl (R.fl (R.fl (2 * pi) * g0') * p2)) (by push_cast; exact logNear_div e4 e8)
  have hfront := rdiv_some R (x := R.fl (R.fl (massR R * lightR R) * A')) (ne_zero_of_near e8)
  set F := R.fl (R.fl (R.fl (massR R * lightR R) * A') / R.fl (R.fl (R.fl (2 * pi) * g0') * p2))
  -- the exponent
  set X1 := g / g0 with hX1
  have hX1p : 0 < X1 := div_pos hgp hg0p
  set w := 1 - |(xi : ℝ)| with hw
  have hw0 : 0 ≤ w := by linarith
  have f1 := logNear_abs (logNear_div c3 b3) (by linarith)
  have f2 : |((-gmm / g0' : ℚ) : ℝ) - -X1| ≤ 24 * u * X1 := by
    push_cast
    rw [show -(gmm : ℝ) / g0' - -X1 = -((gmm : ℝ) / g0' - X1) by ring, abs_neg]
    refine le_trans f1 (le_of_eq ?_)
    ring
  have hu1 : 0 ≤ (u : ℝ) * X1 := mul_nonneg hu0 hX1p.le
  have f3 : |(R.fl (-gmm / g0') : ℝ) - -X1| ≤ 26 * u * X1 := by
    refine le_trans (fl_near_abs R f2 (A := X1) (by rw [abs_neg, abs_of_pos hX1p])) ?_
    nlinarith
  have f4 : |(R.fl (1 - |xi|) : ℝ) - w| ≤ u * w := by
    have := fl_relR R (1 - |xi|)
    push_cast at this
    rwa [← hw, abs_of_nonneg hw0] at this
  have f5 : |(A' : ℝ) - A| ≤ 28 * u * A := le_trans (logNear_abs d1 (by linarith)) (le_of_eq (by ring))
  have hAw : 0 ≤ A * w := mul_nonneg hA0.le hw0
  have huw : 0 ≤ (u : ℝ) * (A * w) := mul_nonneg hu0 hAw
  have f6 : |((A' * R.fl (1 - |xi|) : ℚ) : ℝ) - A * w| ≤ 30 * u * (A * w) := by
    push_cast
    rw [show (A' : ℝ) * R.fl (1 - |xi|) - A * w = ((A' : ℝ) - A) * R.fl (1 - |xi|) + A * ((R.fl (1 - |xi|) : ℝ) - w) by ring]
    refine le_trans (abs_add_le _ _) ?_
    rw [abs_mul, abs_mul, abs_of_pos hA0]
    have k1 : |(R.fl (1 - |xi|) : ℝ)| ≤ (1 + u) * w := by
      have := abs_add_le ((R.fl (1 - |xi|) : ℝ) - w) w
      rw [sub_add_cancel, abs_of_nonneg hw0] at this
      linarith
    have k2 := mul_le_mul f5 k1 (abs_nonneg _) (by positivity)
    have k3 := mul_le_mul_of_nonneg_left f4 hA0.le
    nlinarith
  have f7 : |(R.fl (A' * R.fl (1 - |xi|)) : ℝ) - A * w| ≤ 32 * u * (A * w) := by
    refine le_trans (fl_near_abs R f6 (le_of_eq (abs_of_nonneg hAw))) ?_
    nlinarith
  have hXe : X = X1 + A * w := hX
  have hX0 : 0 < X := by linarith
  have huX : 0 ≤ (u : ℝ) * X := mul_nonneg hu0 hX0.le
  have f8 : |((R.fl (-gmm / g0') - R.fl (A' * R.fl (1 - |xi|)) : ℚ) : ℝ) - -X| ≤ 32 * u * X := by
    push_cast
    rw [show (R.fl (-gmm / g0') : ℝ) - R.fl (A' * R.fl (1 - |xi|)) - -X =
      ((R.fl (-gmm / g0') : ℝ) - -X1) + -((R.fl (A' * R.fl (1 - |xi|)) : ℝ) - A * w) by rw [hXe]; ring]
    refine le_trans (abs_add_le _ _) ?_
    rw [abs_neg, hXe]
    nlinarith
  have f9 : |(R.fl (R.fl (-gmm / g0') - R.fl (A' * R.fl (1 - |xi|))) : ℝ) - -X| ≤ 34 * u * X := by
    refine le_trans (fl_near_abs R f8 (A := X) (by rw [abs_neg, abs_of_pos hX0])) ?_
    nlinarith
  have hexp : avalancheExpR R A' gmm g0' xi = some (R.fl (R.fl (-gmm / g0') - R.fl (A' * R.fl (1 - |xi|)))) := by
    unfold avalancheExpR
    rw [rdiv_some R (ne_zero_of_near b3)]
    rfl
  set e := R.fl (R.fl (-gmm / g0') - R.fl (A' * R.fl (1 - |xi|)))
  have g1 := lib_exp hL hu4 f9
  -- the denominator
  have huA' : 0 ≤ (u : ℝ) * A := mul_nonneg hu0 hA0.le
  have g2 : |((-2 * A' : ℚ) : ℝ) - (-2 * A)| ≤ 56 * u * A := by
    push_cast
    rw [show -2 * (A' : ℝ) - -2 * A = -(2 * ((A' : ℝ) - A)) by ring, abs_neg, abs_mul, abs_of_pos (by norm_num : (0 : ℝ) < 2)]
    linarith
  have g3 : |(R.fl (-2 * A') : ℝ) - (-2 * A)| ≤ 60 * u * A := by
    refine le_trans (fl_near_abs R g2 (A := 2 * A) (by rw [neg_mul, abs_neg, abs_of_pos (by linarith)])) ?_
    nlinarith
  have g4 := one_sub_exp_near hu0 hus hA0 (lib_exp hL hu4 g3)
  have hden : 0 < 1 - Real.exp (-2 * A) := by
    have : Real.exp (-2 * A) < 1 := by rw [Real.exp_lt_one_iff]; linarith
    linarith
  set den := 1 - Real.exp (-2 * A)
  have hδ : 4 * (u : ℝ) / A = 4 * (u * (1 / A)) := by ring
  rw [hδ] at g4
  have g5 : |(R.fl (1 - L.exp (R.fl (-2 * A'))) : ℝ) - den| ≤ (62 * u + 4 * (u * (1 / A))) * den := by
    have := fl_near_abs R (x' := 1 - L.exp (R.fl (-2 * A'))) (x := den) (by push_cast; exact g4) (le_of_eq (abs_of_pos hden))
    refine le_trans this ?_
    have k : 60 * (u : ℝ) + 4 * (u * (1 / A)) ≤ 1 := by linarith
    have k2 := mul_le_mul_of_nonneg_right k (mul_nonneg hu0 hden.le)
    nlinarith
  have g6 := logNear_of_abs hden g5 (by linarith)
  have hquot := rdiv_some R (x := L.exp e) (ne_zero_of_near g6)
  have g7 := logNear_fl R hu2 (x' := L.exp e / R.fl (1 - L.exp (R.fl (-2 * A')))) (by push_cast; exact logNear_div g1 g6)
  have g8 := logNear_fl R hu2 (x' := F * R.fl (L.exp e / R.fl (1 - L.exp (R.fl (-2 * A'))))) (by push_cast; exact logNear_mul e9 g7)
  have hform := C64_avalanche_formula (EHat : ℝ) lnLambda Zeff p xi g g0 A hg hg0 hA hp' hg0p.ne' hA0.ne'
  have hval : electronMass * lightSpeed * A / (2 * Real.pi * g0 * (p : ℝ) ^ 2) * Real.exp (-g / g0 - A * (1 - |(xi : ℝ)|)) * (1 / (1 - Real.exp (-2 * A))) =
      electronMass * lightSpeed * A / (2 * Real.pi * g0 * (p * p)) * (Real.exp (-X) / den) := by
    rw [show -g / g0 - A * (1 - |(xi : ℝ)|) = -X by rw [hX]; ring, pow_two, mul_assoc, mul_one_div]
  rw [hval] at hform
  refine ⟨Ac, _, _, hAc, ?_, hform, g8.1, g8.2.1, le_trans g8.2.2 ?_⟩
  · show ((rdiv R (R.fl (R.fl (massR R * lightR R) * A')) (R.fl (R.fl (R.fl (2 * pi) * g0') * p2))).bind fun f =>
      (avalancheExpR R A' gmm g0' xi).bind fun e =>
      (rdiv R (L.exp e) (R.fl (1 - L.exp (R.fl (-2 * A'))))).map fun g => R.fl (f * g)) = _
    rw [hfront, hexp]
    simp only [Option.bind_some]
    rw [hquot]
    rfl
  · rw [show 200 * (u : ℝ) * (1 + X + 1 / A) = 200 * u + 200 * (u * X) + 200 * (u * (1 / A)) by ring]
    linarith

/-- **C142** Logarithms and relative errors. -/
theorem C142_relative {v f K : ℝ} (hf : 0 < f) (hv : 0 < v) (h : |Real.log v - Real.log f| ≤ K) (hK : K ≤ 1) : |v - f| ≤ 2 * K * f :=
  logNear_abs ⟨hf, hv, h⟩ hK

/-- **C142** The product with a radial profile. -/
theorem C142_radial (hu : (u : ℝ) ≤ 1 / 2) {rp' f' : ℚ} {rp f B C : ℝ} (h1 : 0 < rp) (h2 : 0 < (rp' : ℝ)) (h3 : |Real.log (rp' : ℝ) - Real.log rp| ≤ B)
    (h4 : 0 < f) (h5 : 0 < (f' : ℝ)) (h6 : |Real.log (f' : ℝ) - Real.log f| ≤ C) :
    0 < (radialR R rp' f' : ℝ) ∧ |Real.log (radialR R rp' f' : ℝ) - Real.log (rp * f)| ≤ B + C + 2 * u :=
  (logNear_fl R hu (x' := rp' * f') (by push_cast; exact logNear_mul ⟨h1, h2, h3⟩ ⟨h4, h5, h6⟩)).2

end

/-! ### where the errors are large -/

theorem unit52 : ((1 / 2 / 2 ^ 52 : ℚ) : ℝ) = 1 / 2 ^ 53 := by push_cast; norm_num

/-- **C142, refutation.** In double precision, with a library that is right to the last digit near zero, the avalanche distribution of a plasma
of effective charge `2^60` is a division by zero. -/
theorem C142_refuted_small : ∃ L : MathLib, GoodLib L (1 / 2 / 2 ^ 52) ∧ ∀ pi xi : ℚ,
    ∃ Ac f, avalancheAcR (rndBits 52) 0 (2 ^ 60) = some Ac ∧
      avalancheR (rndBits 52) L pi Ac (avalancheG0R (rndBits 52) L 1 (2 ^ 60)) 1 xi = none ∧
      (MomDist.mkAvalanche 0 1 (2 ^ 60)).eval 1 xi = some f := by
  obtain ⟨L0, h0⟩ := goodLib_exists (u := 1 / 2 / 2 ^ 52) (by push_cast; positivity)
  set L : MathLib := { L0 with exp := fun x => if |x| ≤ 1 / 2 ^ 57 then 1 else L0.exp x } with hLdef
  have hL : GoodLib L (1 / 2 / 2 ^ 52) := by
    refine ⟨h0.sqrt, fun x => ?_⟩
    by_cases hx : |x| ≤ 1 / 2 ^ 57
    · have e : L.exp x = 1 := if_pos hx
      have hx' : |(x : ℝ)| ≤ 1 / 2 ^ 57 := by
        have : ((|x| : ℚ) : ℝ) ≤ ((1 / 2 ^ 57 : ℚ) : ℝ) := by exact_mod_cast hx
        push_cast at this
        exact this
      rw [e, unit52]
      have h1 := Real.abs_exp_sub_one_le (x := (x : ℝ)) (le_trans hx' (by norm_num))
      have h2 : |Real.exp (x : ℝ) - 1| ≤ 1 / 2 ^ 56 := by
        refine le_trans h1 ?_
        calc 2 * |(x : ℝ)| ≤ 2 * (1 / 2 ^ 57) := by linarith
          _ = 1 / 2 ^ 56 := by norm_num
      have h3 := (abs_le.1 h2).1
      rw [abs_sub_comm, Rat.cast_one]
      refine le_trans h2 ?_
      have h4 : (1 : ℝ) / 2 ≤ Real.exp x := by
        have : (1 : ℝ) / 2 ^ 56 ≤ 1 / 2 := by norm_num
        linarith
      calc (1 : ℝ) / 2 ^ 56 ≤ 2 * (1 / 2 ^ 53) * (1 / 2) := by norm_num
        _ ≤ _ := mul_le_mul_of_nonneg_left h4 (by norm_num)
    · rw [show L.exp x = L0.exp x from if_neg hx]
      exact h0.exp x
  refine ⟨L, hL, fun pi xi => ?_⟩
  have hAc : avalancheAcR (rndBits 52) 0 (2 ^ 60) = some (1 / 2 ^ 60) := by decide +kernel
  have hp2 : (rndBits 52).fl (1 * 1) = 1 := by decide +kernel
  have hp3 : (rndBits 52).fl (1 + 1) = 2 := by decide +kernel
  have hform := C64_avalanche_formula 0 1 (2 ^ 60) 1 xi _ _ _ rfl rfl rfl one_ne_zero (by positivity) (by positivity)
  refine ⟨_, _, hAc, ?_, hform⟩
  -- the root
  have hs := hL.sqrt 2 (by norm_num)
  have hs2 : Real.sqrt 2 ≤ 3 / 2 := by rw [Real.sqrt_le_left (by norm_num)]; norm_num
  have hs1 : 1 ≤ Real.sqrt 2 := by rw [Real.one_le_sqrt]; norm_num
  rw [unit52, abs_le] at hs
  norm_num at hs
  have hg2 : L.sqrt 2 ≤ 2 := by
    have : (L.sqrt 2 : ℝ) ≤ 2 := by linarith [hs.2]
    exact_mod_cast this
  have hg0 : 0 ≤ L.sqrt 2 := by
    have : (0 : ℝ) ≤ L.sqrt 2 := by linarith [hs.1]
    exact_mod_cast this
  have m1 : (rndBits 52).fl (1 / 2 ^ 60 * L.sqrt 2) ≤ 1 / 2 ^ 59 := by
    have := (rndBits 52).mono (x := 1 / 2 ^ 60 * L.sqrt 2) (y := 1 / 2 ^ 59) (by linarith)
    rwa [show (rndBits 52).fl (1 / 2 ^ 59) = 1 / 2 ^ 59 by decide +kernel] at this
  have m2 : 0 ≤ (rndBits 52).fl (1 / 2 ^ 60 * L.sqrt 2) := by
    have := (rndBits 52).mono (x := 0) (y := 1 / 2 ^ 60 * L.sqrt 2) (by positivity)
    rwa [show (rndBits 52).fl 0 = 0 by decide +kernel] at this
  set A' := (rndBits 52).fl (1 / 2 ^ 60 * L.sqrt 2) with hA'
  have m3 : (rndBits 52).fl (-2 * A') ≤ 0 := by
    have := (rndBits 52).mono (x := -2 * A') (y := 0) (by linarith)
    rwa [show (rndBits 52).fl 0 = 0 by decide +kernel] at this
  have m4 : -(1 / 2 ^ 58) ≤ (rndBits 52).fl (-2 * A') := by
    have := (rndBits 52).mono (x := -(1 / 2 ^ 58)) (y := -2 * A') (by linarith)
    rwa [show (rndBits 52).fl (-(1 / 2 ^ 58)) = -(1 / 2 ^ 58) by decide +kernel] at this
  have m5 : L.exp ((rndBits 52).fl (-2 * A')) = 1 := if_pos (by rw [abs_of_nonpos m3]; linarith)
  have m6 : (rndBits 52).fl (1 - 1) = 0 := by decide +kernel
  unfold avalancheR
  simp only [hp2, hp3, ← hA', m5, m6, rdiv, if_true, Option.map_none]
  simp

/-- **C142, refutation.** In double precision and with every accurate library, the error of the Connor-Hastie distribution is not a modest multiple
of the unit of rounding times the exponent: at `p = 2^40` and `xi = 1 - 2^-27` it is a million times larger than that. -/
theorem C142_refuted_pitch (L : MathLib) (hL : GoodLib L (1 / 2 / 2 ^ 52)) : ∃ D v f X, hastieDR (rndBits 52) 1 0 = some D ∧
    hastieR (rndBits 52) L 0 0 D (2 ^ 40) (1 - 1 / 2 ^ 27) = some v ∧
    (MomDist.mkConnorHastie 1 0 0 0).eval (2 ^ 40) (1 - 1 / 2 ^ 27) = some f ∧
    f = 1 / (2 ^ 40 * (1 - 1 / 2 ^ 27)) * Real.exp (-X) ∧ 0 < X ∧
    2 ^ 20 * (1 / 2 ^ 53) * (1 + X) < |Real.log (v : ℝ) - Real.log f| := by
  have hD : hastieDR (rndBits 52) 1 0 = some 1 := by decide +kernel
  have hu : ((1 / 2 / 2 ^ 52 : ℚ) : ℝ) ≤ 1 / 4 := by rw [unit52]; norm_num
  obtain ⟨f', hf1, hf2⟩ := hastieFront_near (rndBits 52) hu (p := 2 ^ 40) (xi := 1 - 1 / 2 ^ 27) (by norm_num) (by norm_num)
  have hxa : |(1 - 1 / 2 ^ 27 : ℚ)| = 1 - 1 / 2 ^ 27 := abs_of_pos (by norm_num)
  have hxr : |(1 - 1 / 2 ^ 27 : ℝ)| = 1 - 1 / 2 ^ 27 := abs_of_pos (by norm_num)
  have he : hastieExpR (rndBits 52) 1 (2 ^ 40) (1 - 1 / 2 ^ 27) = some ((rndBits 52).fl (-(2 ^ 14) / (1 - 1 / 2 ^ 27))) := by
    unfold hastieExpR
    rw [hxa, rdiv_some _ (by norm_num), show (rndBits 52).fl ((rndBits 52).fl (-1 * 2 ^ 40) *
      (rndBits 52).fl (1 - (rndBits 52).fl ((1 - 1 / 2 ^ 27) * (1 - 1 / 2 ^ 27)))) = -(2 ^ 14) by decide +kernel]
  set e := (rndBits 52).fl (-(2 ^ 14) / (1 - 1 / 2 ^ 27)) with hedef
  have he1 := fl_relR (rndBits 52) (-(2 ^ 14) / (1 - 1 / 2 ^ 27))
  rw [← hedef, unit52] at he1
  push_cast at he1
  have hform := (C64_connorHastie_formula 1 0 0 0 (2 ^ 40) (1 - 1 / 2 ^ 27) _ _ rfl rfl (by rw [hxr]; norm_num)).1 (Or.inl rfl)
  rw [hxr] at hform
  set X : ℝ := 2 ^ 14 * (1 - 1 / 2 ^ 28) / (1 - 1 / 2 ^ 27) with hX
  have hexp : -(((1 : ℝ) + 1) / (2 * (0 + 1))) * ((2 ^ 40 : ℝ) ^ 2 * (1 - (1 - 1 / 2 ^ 27) ^ 2)) / (2 ^ 40 * (1 - 1 / 2 ^ 27)) = -X := by
    rw [hX]; norm_num
  rw [hexp] at hform
  have hl := logNear_of_abs (Real.exp_pos (e : ℝ)) (hL.exp e) (by rw [unit52]; norm_num)
  have h4 := logNear_fl (rndBits 52) (by linarith) (x' := f' * L.exp e) (by push_cast; exact logNear_mul hf2 hl)
  refine ⟨1, (rndBits 52).fl (f' * L.exp e), _, X, hD, ?_, hform, rfl, by rw [hX]; norm_num, ?_⟩
  · unfold hastieR
    rw [if_pos (Or.inl rfl), hf1, he]
    rfl
  · have hb := h4.2.2
    push_cast at hb
    rw [hxr] at hb
    have hfr : (0 : ℝ) < 1 / (2 ^ 40 * (1 - 1 / 2 ^ 27)) := by norm_num
    rw [Real.log_mul hfr.ne' (Real.exp_pos _).ne', Real.log_exp] at hb
    rw [Real.log_mul hfr.ne' (Real.exp_pos _).ne', Real.log_exp]
    generalize Real.log (((rndBits 52).fl (f' * L.exp e) : ℚ) : ℝ) = a at *
    generalize Real.log (1 / (2 ^ 40 * (1 - 1 / 2 ^ 27)) : ℝ) = b at *
    generalize (e : ℝ) = e' at *
    rw [abs_le] at hb he1
    have hneg : |(-2 ^ 14 / (1 - 1 / 2 ^ 27) : ℝ)| = 2 ^ 14 / (1 - 1 / 2 ^ 27) := by
      rw [abs_of_neg (by norm_num)]; norm_num
    rw [hneg] at he1
    rw [lt_abs]
    right
    rw [hX]
    norm_num at *
    linarith [he1.2, hb.2]

/-! ### examples -/

/-- A charge of one and a field of one: the avalanche distribution is good to 14 digits. -/
example {u : ℚ} (R : Rnd u) (hu : u = 1 / 2 ^ 53) (L : MathLib) (hL : GoodLib L u) (pi : ℚ) (hpi : |(pi : ℝ) - Real.pi| ≤ u * Real.pi) :
    ∃ Ac v f, avalancheAcR R 1 1 = some Ac ∧ avalancheR R L pi Ac (avalancheG0R R L 10 1) 1 1 = some v ∧
      (MomDist.mkAvalanche 1 10 1).eval 1 1 = some f ∧ 0 < f ∧ 0 < (v : ℝ) ∧
      |Real.log (v : ℝ) - Real.log f| ≤ 200 * u *
        (1 + (Real.sqrt (1 + ((1 : ℚ) : ℝ) ^ 2) / (((10 : ℚ) : ℝ) * Real.sqrt (((1 : ℚ) : ℝ) + 5)) +
            (((1 : ℚ) : ℝ) + 1) / (((1 : ℚ) : ℝ) + 1) * Real.sqrt (1 + ((1 : ℚ) : ℝ) ^ 2) * (1 - |((1 : ℚ) : ℝ)|)) +
          1 / ((((1 : ℚ) : ℝ) + 1) / (((1 : ℚ) : ℝ) + 1) * Real.sqrt (1 + ((1 : ℚ) : ℝ) ^ 2))) := by
  have := C142_avalanche R hL hpi 1 10 1 1 1 (by norm_num) (by norm_num) (by norm_num) (by norm_num) (by norm_num) _ _ _ _ rfl rfl rfl rfl (by
    subst hu
    have : 1 ≤ Real.sqrt (1 + ((1 : ℚ) : ℝ) ^ 2) := by rw [Real.one_le_sqrt]; norm_num
    have h2 : 1 / ((((1 : ℚ) : ℝ) + 1) / (((1 : ℚ) : ℝ) + 1) * Real.sqrt (1 + ((1 : ℚ) : ℝ) ^ 2)) ≤ 1 := by
      rw [div_le_one (by positivity)]
      push_cast at this ⊢
      norm_num at this ⊢
    push_cast at h2 ⊢
    linarith)
  exact_mod_cast this

/-- The conditions on the library can be met. -/
example : ∃ L : MathLib, GoodLib L (1 / 2 / 2 ^ 52) := goodLib_exists (by push_cast; positivity)

/-- The Connor-Hastie distribution with a cut-off. -/
example {u : ℚ} (R : Rnd u) (hu : (u : ℝ) ≤ 1 / 100) (L : MathLib) (hL : GoodLib L u) : ∃ D v, hastieDR R 1 1 = some D ∧
    hastieR R L 1 1 D 2 (1 / 2) = some v ∧ 0 < (v : ℝ) := by
  obtain ⟨D, v, _, h1, h2, _, _, h3, _⟩ := C142_hastie R hL hu 1 1 1 1 2 (1 / 2) (by norm_num) (by norm_num) (by norm_num) (by norm_num) (by norm_num [abs_le])
  exact ⟨D, v, h1, h2, h3⟩

end

end Softlib
