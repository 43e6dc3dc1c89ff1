/-
C150: the field lines of the analytical magnetic field and how often they go around.
Model: AnalyticModel.lean.
-/
import Verif.Magnetic.DirectionProps
import Mathlib.Analysis.SpecialFunctions.Trigonometric.ArctanDeriv
import Mathlib.Analysis.SpecialFunctions.Trigonometric.Deriv
import Mathlib.Analysis.SpecialFunctions.Complex.Arg

namespace Softlib

open Softlib.Magnetic

noncomputable section

/-- The integral of `1 / (1 - e cos t)`. -/
def windAngle (e t : ℝ) : ℝ :=
  (t + 2 * Real.arctan (e / (1 + Real.sqrt (1 - e ^ 2)) * Real.sin t / (1 - e / (1 + Real.sqrt (1 - e ^ 2)) * Real.cos t))) / Real.sqrt (1 - e ^ 2)

theorem wind_deriv {e : ℝ} (h0 : 0 ≤ e) (h1 : e < 1) (t : ℝ) : HasDerivAt (windAngle e) (1 / (1 - e * Real.cos t)) t := by
  have hs : 0 < 1 - e ^ 2 := by nlinarith
  obtain ⟨s, hsd⟩ : ∃ s, s = Real.sqrt (1 - e ^ 2) := ⟨_, rfl⟩
  have s0 : 0 < s := by rw [hsd]; exact Real.sqrt_pos.2 hs
  have s2 : s ^ 2 = 1 - e ^ 2 := by rw [hsd]; exact Real.sq_sqrt hs.le
  obtain ⟨β, hβ⟩ : ∃ β, β = e / (1 + s) := ⟨_, rfl⟩
  have b0 : 0 ≤ β := by rw [hβ]; positivity
  have he : e = β * (1 + s) := by rw [hβ]; field_simp
  have b1 : β < 1 := by rw [hβ, div_lt_one (by positivity)]; linarith
  have c1 := Real.cos_le_one t
  have d0 : 0 < 1 - β * Real.cos t := by nlinarith [Real.neg_one_le_cos t]
  have hu : HasDerivAt (fun t => β * Real.sin t / (1 - β * Real.cos t))
      ((β * Real.cos t * (1 - β * Real.cos t) - β * Real.sin t * (β * Real.sin t)) / (1 - β * Real.cos t) ^ 2) t := by
    have n := (Real.hasDerivAt_sin t).const_mul β
    have d := ((Real.hasDerivAt_cos t).const_mul β).const_sub 1
    refine (n.div d d0.ne').congr_deriv ?_
    ring
  have h := (((hasDerivAt_id t).add (hu.arctan.const_mul 2)).div_const s)
  have hw : windAngle e = fun t => (id t + 2 * Real.arctan (β * Real.sin t / (1 - β * Real.cos t))) / s := by
    funext t; unfold windAngle; rw [← hsd, ← hβ]; rfl
  rw [hw]
  refine h.congr_deriv ?_
  have cs := Real.sin_sq_add_cos_sq t
  generalize Real.sin t = S at *
  generalize Real.cos t = C at *
  have q0 : 0 < 1 - 2 * β * C + β ^ 2 := by nlinarith [sq_nonneg (β - C)]
  have e1 : 1 + (β * S / (1 - β * C)) ^ 2 = (1 - 2 * β * C + β ^ 2) / (1 - β * C) ^ 2 := by
    rw [div_pow, eq_div_iff (by positivity), add_mul, div_mul_cancel₀ _ (by positivity)]
    linear_combination β ^ 2 * cs
  have hb2 : β ^ 2 * (1 + s) = 1 - s := by
    have : β ^ 2 * (1 + s) * (1 + s) = (1 - s) * (1 + s) := by
      have : β ^ 2 * (1 + s) * (1 + s) = e ^ 2 := by rw [he]; ring
      rw [this]; linarith
    exact mul_right_cancel₀ (by positivity) this
  have e2 : (1 + s) * (1 - 2 * β * C + β ^ 2) = 2 * (1 - e * C) := by
    rw [he]; linear_combination hb2
  have q1 : 0 < 1 - e * C := by nlinarith
  rw [e1]
  have e3 : 1 / ((1 - 2 * β * C + β ^ 2) / (1 - β * C) ^ 2) * ((β * C * (1 - β * C) - β * S * (β * S)) / (1 - β * C) ^ 2) =
      (β * C - β ^ 2) / (1 - 2 * β * C + β ^ 2) := by
    field_simp
    linear_combination (-β ^ 2) * cs
  rw [e3]
  have e4 : 1 - 2 * β * C + β ^ 2 = 2 * (1 - e * C) / (1 + s) := by rw [eq_div_iff (by positivity)]; linarith
  have e5 : 1 + 2 * ((β * C - β ^ 2) / (1 - 2 * β * C + β ^ 2)) = (1 - β ^ 2) / (1 - 2 * β * C + β ^ 2) := by
    field_simp; ring
  rw [e5, e4, show 1 - β ^ 2 = 2 * s / (1 + s) by rw [eq_div_iff (by positivity)]; linarith]
  field_simp

theorem wind_turn (e t : ℝ) : windAngle e (t + 2 * Real.pi) = windAngle e t + 2 * Real.pi / Real.sqrt (1 - e ^ 2) := by
  unfold windAngle
  rw [Real.sin_add_two_pi, Real.cos_add_two_pi]
  ring

/-- Distance from the axis of symmetry along a field line at distance `r` from the magnetic axis; `t` is the poloidal angle, counted from the inside. -/
def lineR (rm r t : ℝ) : ℝ := rm - r * Real.cos t

/-- Toroidal angle along the line. -/
def linePhi (rm r phi0 k t : ℝ) : ℝ := phi0 + k * windAngle (r / rm) t

theorem line_pos {rm r : ℝ} (h0 : 0 ≤ r) (h1 : r < rm) (t : ℝ) : 0 < lineR rm r t := by
  unfold lineR
  nlinarith [Real.cos_le_one t, Real.neg_one_le_cos t]

theorem linePhi_deriv {rm r : ℝ} (h0 : 0 ≤ r) (h1 : r < rm) (phi0 k t : ℝ) : HasDerivAt (linePhi rm r phi0 k) (k * rm / lineR rm r t) t := by
  have hm : 0 < rm := by linarith
  have hR := line_pos h0 h1 t
  have h := ((wind_deriv (div_nonneg h0 hm.le) (by rwa [div_lt_one hm]) t).const_mul k).const_add phi0
  refine h.congr_deriv ?_
  have : 1 - r / rm * Real.cos t = lineR rm r t / rm := by unfold lineR; field_simp
  rw [this]
  field_simp

/-- **C150** The field lines: with `σ q` toroidal for each poloidal turn locally, at distance `r` from the magnetic axis, the curve has the field as tangent
everywhere. -/
theorem C150_lines (b0 rm zm rminor : ℝ) (sB sI : FieldSign) (q : QProfile) (r phi0 Q : ℝ) (h0 : 0 < r) (h1 : r < rm) (hb : b0 ≠ 0)
    (hQ : Q = safety q rminor r) (hQ0 : Q ≠ 0) (R phi : ℝ → ℝ) (hR : R = lineR rm r) (hphi : phi = linePhi rm r phi0 (directionSign sB * directionSign sI * Q))
    (t : ℝ) (B : ℝ × ℝ × ℝ)
    (hB : B = (mkAField b0 rm zm rminor sB sI q).eval (R t * Real.cos (phi t)) (R t * Real.sin (phi t)) (zm + r * Real.sin t)) :
    HasDerivAt (fun t => R t * Real.cos (phi t)) (R t * Q / (directionSign sI * b0) * B.1) t ∧
    HasDerivAt (fun t => R t * Real.sin (phi t)) (R t * Q / (directionSign sI * b0) * B.2.1) t ∧
    HasDerivAt (fun t => zm + r * Real.sin t) (R t * Q / (directionSign sI * b0) * B.2.2) t := by
  have hval : ∀ s : FieldSign, s.val = directionSign s := by intro s; cases s <;> simp [FieldSign.val, directionSign]
  have hsq : ∀ s : FieldSign, directionSign s * directionSign s = 1 := by intro s; cases s <;> simp [directionSign]
  have hRp : 0 < R t := by rw [hR]; exact line_pos h0.le h1 t
  have hm : rm ≠ 0 := by linarith
  have dR : HasDerivAt R (r * Real.sin t) t := by
    rw [hR]
    exact (((Real.hasDerivAt_cos t).const_mul r).const_sub rm).congr_deriv (by ring)
  have dphi : HasDerivAt phi (directionSign sB * directionSign sI * Q * rm / R t) t := by
    rw [hphi, hR]
    exact linePhi_deriv h0.le h1 phi0 _ t
  have y1 : hyp (R t * Real.cos (phi t)) (R t * Real.sin (phi t)) = R t := by
    unfold hyp
    rw [show (R t * Real.cos (phi t)) ^ 2 + (R t * Real.sin (phi t)) ^ 2 = R t ^ 2 * (Real.sin (phi t) ^ 2 + Real.cos (phi t) ^ 2) by ring,
      Real.sin_sq_add_cos_sq, mul_one, Real.sqrt_sq hRp.le]
  have y2 : rm - R t = r * Real.cos t := by rw [hR, lineR]; ring
  have y3 : hyp (r * Real.cos t) (r * Real.sin t) = r := by
    unfold hyp
    rw [show (r * Real.cos t) ^ 2 + (r * Real.sin t) ^ 2 = r ^ 2 * (Real.sin t ^ 2 + Real.cos t ^ 2) by ring,
      Real.sin_sq_add_cos_sq, mul_one, Real.sqrt_sq h0.le]
  have hI := hsq sI
  have hI0 : directionSign sI ≠ 0 := by intro h; rw [h] at hI; norm_num at hI
  simp only [AField.eval, mkAField, hval, y1, y2, add_sub_cancel_left, y3, ← hQ] at hB
  rw [if_pos h0.ne', if_pos h0.ne'] at hB
  subst hB
  refine ⟨?_, ?_, ?_⟩
  · refine (dR.mul dphi.cos).congr_deriv ?_
    dsimp only
    field_simp
    linear_combination (-(rm * Q * Real.sin (phi t) * directionSign sB)) * hI
  · refine (dR.mul dphi.sin).congr_deriv ?_
    dsimp only
    field_simp
    linear_combination (rm * Q * Real.cos (phi t) * directionSign sB) * hI
  · refine (((Real.hasDerivAt_sin t).const_mul r).const_add zm).congr_deriv ?_
    dsimp only
    field_simp

/-- **C150** Such a line goes through every point inside the torus that is not on the magnetic axis. -/
theorem C150_through (rm zm x y z r k : ℝ) (hr : r = hyp (rm - hyp x y) (z - zm)) :
    ∃ t phi0, x = lineR rm r t * Real.cos (linePhi rm r phi0 k t) ∧ y = lineR rm r t * Real.sin (linePhi rm r phi0 k t) ∧ z = zm + r * Real.sin t := by
  have key : ∀ a b, ∃ t, a = hyp a b * Real.cos t ∧ b = hyp a b * Real.sin t := by
    intro a b
    refine ⟨Complex.arg (⟨a, b⟩ : ℂ), ?_, ?_⟩
    · have h := Complex.norm_mul_cos_arg (⟨a, b⟩ : ℂ)
      rw [Complex.norm_eq_sqrt_sq_add_sq] at h
      exact h.symm
    · have h := Complex.norm_mul_sin_arg (⟨a, b⟩ : ℂ)
      rw [Complex.norm_eq_sqrt_sq_add_sq] at h
      exact h.symm
  obtain ⟨t, h1, h2⟩ := key (rm - hyp x y) (z - zm)
  obtain ⟨p, h3, h4⟩ := key x y
  rw [← hr] at h1 h2
  have e : lineR rm r t = hyp x y := by unfold lineR; linarith
  refine ⟨t, p - k * windAngle (r / rm) t, ?_, ?_, by linarith⟩ <;> rw [e, linePhi, sub_add_cancel]
  · exact h3
  · exact h4

/-- **C150** In one poloidal turn a line goes around the torus by `q / √(1 - (r/Rm)²)` turns, in the direction that the two signs give. -/
theorem C150_turns_partial (rm r phi0 k t : ℝ) :
    lineR rm r (t + 2 * Real.pi) = lineR rm r t ∧
    linePhi rm r phi0 k (t + 2 * Real.pi) - linePhi rm r phi0 k t = 2 * Real.pi * (k / Real.sqrt (1 - (r / rm) ^ 2)) := by
  refine ⟨by unfold lineR; rw [Real.cos_add_two_pi], ?_⟩
  unfold linePhi
  rw [wind_turn]
  ring

theorem line_more (rm r phi0 k t : ℝ) (h0 : 0 < r) (h1 : r < rm) (hk : k ≠ 0) :
    2 * Real.pi * |k| < |linePhi rm r phi0 k (t + 2 * Real.pi) - linePhi rm r phi0 k t| := by
  have hm : 0 < rm := by linarith
  have e0 : 0 < r / rm := div_pos h0 hm
  have e1 : r / rm < 1 := by rwa [div_lt_one hm]
  rw [(C150_turns_partial rm r phi0 k t).2, abs_mul, abs_of_pos Real.two_pi_pos, abs_div, abs_of_pos (Real.sqrt_pos.2 (by nlinarith))]
  refine mul_lt_mul_of_pos_left ?_ Real.two_pi_pos
  rw [lt_div_iff₀ (Real.sqrt_pos.2 (by nlinarith))]
  have : Real.sqrt (1 - (r / rm) ^ 2) < 1 := by rw [Real.sqrt_lt' one_pos]; nlinarith [pow_pos e0 2]
  have := abs_pos.2 hk
  nlinarith

/-- **C150 does not hold as stated.** On every surface but the magnetic axis the lines of the field go around more often than the safety factor says. -/
theorem C150_refuted (b0 rm zm rminor : ℝ) (sB sI : FieldSign) (q : QProfile) (r : ℝ) (h0 : 0 < r) (h1 : r < rm) (hb : b0 ≠ 0)
    (hQ0 : safety q rminor r ≠ 0) :
    ∃ R phi : ℝ → ℝ, (∀ t, ∃ c, c ≠ 0 ∧ ∀ B, B = (mkAField b0 rm zm rminor sB sI q).eval (R t * Real.cos (phi t)) (R t * Real.sin (phi t)) (zm + r * Real.sin t) →
        HasDerivAt (fun t => R t * Real.cos (phi t)) (c * B.1) t ∧ HasDerivAt (fun t => R t * Real.sin (phi t)) (c * B.2.1) t ∧
        HasDerivAt (fun t => zm + r * Real.sin t) (c * B.2.2) t) ∧
      ∀ t, 0 < R t ∧ (R t - rm) ^ 2 + (r * Real.sin t) ^ 2 = r ^ 2 ∧ R (t + 2 * Real.pi) = R t ∧
        2 * Real.pi * |safety q rminor r| < |phi (t + 2 * Real.pi) - phi t| := by
  have hs : ∀ s : FieldSign, directionSign s = 1 ∨ directionSign s = -1 := by intro s; cases s <;> simp [directionSign]
  have hs0 : ∀ s : FieldSign, directionSign s ≠ 0 := fun s => by rcases hs s with h | h <;> rw [h] <;> norm_num
  have hsa : ∀ s : FieldSign, |directionSign s| = 1 := fun s => by rcases hs s with h | h <;> rw [h] <;> norm_num
  refine ⟨_, _, fun t => ⟨lineR rm r t * safety q rminor r / (directionSign sI * b0), ?_, fun B hB =>
    C150_lines b0 rm zm rminor sB sI q r 0 _ h0 h1 hb rfl hQ0 _ _ rfl rfl t B hB⟩, fun t => ⟨line_pos h0.le h1 t, ?_, (C150_turns_partial rm r 0 0 t).1, ?_⟩⟩
  · exact div_ne_zero (mul_ne_zero (line_pos h0.le h1 t).ne' hQ0) (mul_ne_zero (hs0 sI) hb)
  · unfold lineR
    linear_combination r ^ 2 * Real.sin_sq_add_cos_sq t
  · have := line_more rm r 0 (directionSign sB * directionSign sI * safety q rminor r) t h0 h1 (mul_ne_zero (mul_ne_zero (hs0 _) (hs0 _)) hQ0)
    rwa [abs_mul, abs_mul, hsa, hsa, one_mul, one_mul] at this

/-- **C150** The difference is at most the square of `r / Rm` in proportion, up to half way out. -/
theorem C150_close_partial (rm r phi0 k t : ℝ) (h0 : 0 ≤ r) (hm : 0 < rm) (h1 : 2 * r ≤ rm) :
    |(linePhi rm r phi0 k (t + 2 * Real.pi) - linePhi rm r phi0 k t) - 2 * Real.pi * k| ≤ 2 * Real.pi * |k| * (r / rm) ^ 2 := by
  have e0 : 0 ≤ r / rm := div_nonneg h0 hm.le
  have e1 : r / rm ≤ 1 / 2 := by rw [div_le_iff₀ hm]; linarith
  rw [(C150_turns_partial rm r phi0 k t).2]
  obtain ⟨e, he⟩ : ∃ e, e = r / rm := ⟨_, rfl⟩
  rw [← he] at e0 e1 ⊢
  obtain ⟨s, hs⟩ : ∃ s, s = Real.sqrt (1 - e ^ 2) := ⟨_, rfl⟩
  have s2 : s ^ 2 = 1 - e ^ 2 := by rw [hs]; exact Real.sq_sqrt (by nlinarith)
  have s0 : 0 < s := by rw [hs]; exact Real.sqrt_pos.2 (by nlinarith)
  rw [← hs]
  have s1 : s ≤ 1 := by nlinarith [sq_nonneg e]
  have : 2 * Real.pi * (k / s) - 2 * Real.pi * k = 2 * Real.pi * (k * (1 / s - 1)) := by ring
  rw [this, abs_mul, abs_of_pos Real.two_pi_pos, abs_mul, mul_assoc (2 * Real.pi)]
  have d0 : 0 ≤ 1 / s - 1 := by rw [sub_nonneg, le_div_iff₀ s0]; linarith
  have d1 : 1 / s - 1 ≤ e ^ 2 := by
    rw [sub_le_iff_le_add, div_le_iff₀ s0]
    have : 1 ≤ ((e ^ 2 + 1) * s) ^ 2 := by
      rw [mul_pow, s2]
      have w0 := sq_nonneg e
      have w1 : e ^ 2 ≤ 1 / 4 := by nlinarith
      generalize e ^ 2 = w at w0 w1
      have : 0 ≤ w * (1 - w - w ^ 2) := mul_nonneg w0 (by nlinarith)
      nlinarith
    nlinarith [mul_nonneg (by positivity : (0 : ℝ) ≤ e ^ 2 + 1) s0.le]
  rw [abs_of_nonneg d0]
  exact mul_le_mul_of_nonneg_left (mul_le_mul_of_nonneg_left d1 (abs_nonneg k)) Real.two_pi_pos.le

/-- The line at half the major radius, safety factor one: it needs `2 / √3` turns. -/
example : linePhi 2 1 0 1 (0 + 2 * Real.pi) - linePhi 2 1 0 1 0 = 2 * Real.pi * (1 / Real.sqrt (3 / 4)) := by
  rw [(C150_turns_partial 2 1 0 1 0).2]
  norm_num

end

end Softlib
