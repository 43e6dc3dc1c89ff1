/-
C154: the strength of the analytical magnetic field on its flux surfaces, and how it changes along
the field.  Model: AnalyticModel.lean.

Source: /repo/src/MagneticField/MagneticFieldAnalytical2D.cpp 113-194.
-/
import Verif.Magnetic.AnalyticProps

namespace Softlib

open Softlib.Magnetic

noncomputable section

/-- Distance from the magnetic axis. -/
def minorOf (f : AField) (x y z : ℝ) : ℝ := hyp (f.rm - hyp x y) (z - f.zm)

/-- Norm of the field. -/
def normOf (f : AField) (x y z : ℝ) : ℝ :=
  Real.sqrt ((f.eval x y z).1 ^ 2 + (f.eval x y z).2.1 ^ 2 + (f.eval x y z).2.2 ^ 2)

/-- Scalar product of the reported gradient with the field. -/
def alongField (f : AField) (x y z : ℝ) : ℝ :=
  (f.evalDerivatives x y z).gradB.1 * (f.eval x y z).1 + (f.evalDerivatives x y z).gradB.2.1 * (f.eval x y z).2.1 +
    (f.evalDerivatives x y z).gradB.2.2 * (f.eval x y z).2.2

theorem norm_closed (f : AField) (x y z : ℝ) (h : OffAxis f x y z) (hB : f.sigmaB ^ 2 = 1) (hI : f.sigmaI ^ 2 = 1) :
    normOf f x y z = |f.b0 * f.rm| * Real.sqrt ((minorOf f x y z / (f.rm * safety f.q f.rminor (minorOf f x y z))) ^ 2 + 1) / hyp x y := by
  have hRpos : 0 < hyp x y := lt_of_le_of_ne (hyp_nonneg _ _) (Ne.symm h.R)
  unfold normOf
  rw [← C48_strength_sq f x y z h hB hI, Real.sqrt_sq_eq_abs, babs_closed, abs_mul, abs_mul (hyp x y)⁻¹, abs_of_pos (inv_pos.2 hRpos),
    abs_of_nonneg (Real.sqrt_nonneg _)]
  unfold minorOf
  field_simp

/-- C154: on a flux surface (points of the same distance from the magnetic axis) the strength of the
field is inversely proportional to the distance from the axis of symmetry. -/
theorem C154_inverse (f : AField) (x y z x' y' z' : ℝ) (h : OffAxis f x y z) (h' : OffAxis f x' y' z') (hB : f.sigmaB ^ 2 = 1) (hI : f.sigmaI ^ 2 = 1)
    (hr : minorOf f x y z = minorOf f x' y' z') : normOf f x y z * hyp x y = normOf f x' y' z' * hyp x' y' := by
  rw [norm_closed f x y z h hB hI, norm_closed f x' y' z' h' hB hI, hr, div_mul_cancel₀ _ h.R, div_mul_cancel₀ _ h'.R]

/-- C154: the field vanishes nowhere. -/
theorem C154_nowhere_zero (f : AField) (x y z : ℝ) (h : OffAxis f x y z) (hB : f.sigmaB ^ 2 = 1) (hI : f.sigmaI ^ 2 = 1) (hb : f.b0 ≠ 0) :
    |f.b0 * f.rm| / hyp x y ≤ normOf f x y z ∧ 0 < normOf f x y z := by
  have hRpos : 0 < hyp x y := lt_of_le_of_ne (hyp_nonneg _ _) (Ne.symm h.R)
  have hbr : 0 < |f.b0 * f.rm| := abs_pos.2 (mul_ne_zero hb h.rm)
  have hs : 1 ≤ Real.sqrt ((minorOf f x y z / (f.rm * safety f.q f.rminor (minorOf f x y z))) ^ 2 + 1) := by
    rw [Real.one_le_sqrt]
    nlinarith [sq_nonneg (minorOf f x y z / (f.rm * safety f.q f.rminor (minorOf f x y z)))]
  rw [norm_closed f x y z h hB hI]
  generalize Real.sqrt ((minorOf f x y z / (f.rm * safety f.q f.rminor (minorOf f x y z))) ^ 2 + 1) = s at hs
  constructor
  · rw [div_le_div_iff_of_pos_right hRpos]
    nlinarith
  · have : 0 < s := by linarith
    positivity

/-- C154: on a flux surface the field is stronger the nearer the axis of symmetry, strictly. -/
theorem C154_stronger_inside (f : AField) (x y z x' y' z' : ℝ) (h : OffAxis f x y z) (h' : OffAxis f x' y' z') (hB : f.sigmaB ^ 2 = 1)
    (hI : f.sigmaI ^ 2 = 1) (hb : f.b0 ≠ 0) (hr : minorOf f x y z = minorOf f x' y' z') :
    normOf f x' y' z' < normOf f x y z ↔ hyp x y < hyp x' y' := by
  have e := C154_inverse f x y z x' y' z' h h' hB hI hr
  have p := (C154_nowhere_zero f x y z h hB hI hb).2
  have p' := (C154_nowhere_zero f x' y' z' h' hB hI hb).2
  have hRpos : 0 < hyp x y := lt_of_le_of_ne (hyp_nonneg _ _) (Ne.symm h.R)
  have hRpos' : 0 < hyp x' y' := lt_of_le_of_ne (hyp_nonneg _ _) (Ne.symm h'.R)
  generalize normOf f x y z = N at *
  generalize normOf f x' y' z' = N' at *
  generalize hyp x y = R at *
  generalize hyp x' y' = R' at *
  constructor
  · intro hn
    by_contra hc
    push Not at hc
    nlinarith
  · intro hn
    by_contra hc
    push Not at hc
    nlinarith

theorem hyp_of_nonneg {a : ℝ} (ha : 0 ≤ a) : hyp a 0 = a := by
  rw [hyp, show a ^ 2 + (0 : ℝ) ^ 2 = a ^ 2 from by ring, Real.sqrt_sq ha]

/-- C154: the greatest strength on a flux surface around the magnetic axis is that of the innermost
point, the least that of the outermost point; they are in the ratio of (Rm + r) to (Rm - r). -/
theorem C154_extremes (f : AField) (x y z : ℝ) (h : OffAxis f x y z) (hB : f.sigmaB ^ 2 = 1) (hI : f.sigmaI ^ 2 = 1) (hb : f.b0 ≠ 0)
    (hin : minorOf f x y z < f.rm) :
    normOf f (f.rm + minorOf f x y z) 0 f.zm ≤ normOf f x y z ∧ normOf f x y z ≤ normOf f (f.rm - minorOf f x y z) 0 f.zm ∧
    normOf f (f.rm - minorOf f x y z) 0 f.zm / normOf f (f.rm + minorOf f x y z) 0 f.zm
      = (f.rm + minorOf f x y z) / (f.rm - minorOf f x y z) := by
  obtain ⟨r, hr⟩ : ∃ r, r = minorOf f x y z := ⟨_, rfl⟩
  rw [← hr] at hin ⊢
  have r0 : 0 ≤ r := by rw [hr]; exact hyp_nonneg _ _
  have ein : hyp (f.rm - r) 0 = f.rm - r := hyp_of_nonneg (by linarith)
  have eout : hyp (f.rm + r) 0 = f.rm + r := hyp_of_nonneg (by linarith)
  have min : hyp (f.rm - hyp (f.rm - r) 0) (f.zm - f.zm) = r := by
    rw [ein, sub_self, show f.rm - (f.rm - r) = r from by ring]; exact hyp_of_nonneg r0
  have mout : hyp (f.rm - hyp (f.rm + r) 0) (f.zm - f.zm) = r := by
    rw [eout, sub_self, show f.rm - (f.rm + r) = -r from by ring, hyp, neg_sq]; exact hyp_of_nonneg r0
  have reg : QProfile.Regular f.q f.rminor r := by rw [hr]; exact h.reg
  have hoin : OffAxis f (f.rm - r) 0 f.zm := ⟨h.rm, by rw [ein]; exact (by linarith : (0 : ℝ) < f.rm - r).ne', by rw [min]; exact reg⟩
  have hoout : OffAxis f (f.rm + r) 0 f.zm := ⟨h.rm, by rw [eout]; exact (by linarith : (0 : ℝ) < f.rm + r).ne', by rw [mout]; exact reg⟩
  have i1 := C154_inverse f x y z (f.rm - r) 0 f.zm h hoin hB hI (by rw [← hr]; exact min.symm)
  have i2 := C154_inverse f x y z (f.rm + r) 0 f.zm h hoout hB hI (by rw [← hr]; exact mout.symm)
  have p := (C154_nowhere_zero f x y z h hB hI hb).2
  have p1 := (C154_nowhere_zero f _ _ _ hoin hB hI hb).2
  have p2 := (C154_nowhere_zero f _ _ _ hoout hB hI hb).2
  have hRpos : 0 < hyp x y := lt_of_le_of_ne (hyp_nonneg _ _) (Ne.symm h.R)
  have hsq : (f.rm - hyp x y) ^ 2 ≤ r ^ 2 := by
    have := hyp_mul_self (f.rm - hyp x y) (z - f.zm)
    rw [hr]; unfold minorOf
    nlinarith [sq_nonneg (z - f.zm)]
  have hab := abs_le.1 (abs_le_of_sq_le_sq hsq r0)
  rw [ein] at i1
  rw [eout] at i2
  generalize normOf f x y z = N at *
  generalize normOf f (f.rm - r) 0 f.zm = N1 at *
  generalize normOf f (f.rm + r) 0 f.zm = N2 at *
  generalize hyp x y = R at *
  have hp1 : 0 < f.rm - r := by linarith
  have hp2 : 0 < f.rm + r := by linarith
  refine ⟨?_, ?_, ?_⟩
  · by_contra hc
    push Not at hc
    nlinarith
  · by_contra hc
    push Not at hc
    nlinarith
  · rw [div_eq_div_iff p2.ne' hp1.ne']
    linarith

/-- C154: the component of the reported gradient along the field is minus the reported strength times the
component of the field away from the axis of symmetry, over the distance from it. -/
theorem C154_along (f : AField) (x y z : ℝ) (h : OffAxis f x y z) :
    alongField f x y z = -(f.evalDerivatives x y z).babs / hyp x y *
      (((f.eval x y z).1 * x + (f.eval x y z).2.1 * y) / hyp x y) := by
  have hR := h.R
  have hRR := hyp_mul_self x y
  have hth : minorOf f x y z * ((if minorOf f x y z ≠ 0 then (z - f.zm) / minorOf f x y z else 0) ^ 2 +
      (if minorOf f x y z ≠ 0 then (f.rm - hyp x y) / minorOf f x y z else 0) ^ 2) = minorOf f x y z := by
    by_cases hr : minorOf f x y z = 0
    · simp [hr]
    · rw [if_pos hr, if_pos hr]
      have := hyp_mul_self (f.rm - hyp x y) (z - f.zm)
      unfold minorOf at *
      field_simp
      linear_combination -this
  unfold alongField AField.evalDerivatives AField.eval
  simp only
  unfold minorOf at hth
  generalize (if hyp (f.rm - hyp x y) (z - f.zm) ≠ 0 then (z - f.zm) / hyp (f.rm - hyp x y) (z - f.zm) else 0) = sn at *
  generalize (if hyp (f.rm - hyp x y) (z - f.zm) ≠ 0 then (f.rm - hyp x y) / hyp (f.rm - hyp x y) (z - f.zm) else 0) = cs at *
  generalize safety f.q f.rminor _ = q at *
  generalize rdqdr f.q f.rminor _ = dq at *
  generalize hyp (f.rm - hyp x y) (z - f.zm) = r at *
  generalize hyp x y = R at *
  generalize hk : r / (f.rm * q) = k
  have hk2 : k * (sn ^ 2 + cs ^ 2) = k := by rw [← hk, div_mul_eq_mul_div, hth]
  generalize k / (f.rm * q) * (1 - dq) / Real.sqrt (k * k + 1) = d
  generalize Real.sqrt (k * k + 1) = s
  field_simp
  linear_combination (-(f.b0 ^ 2 * f.rm ^ 2 * f.sigmaI * s * sn) * (x ^ 2 + y ^ 2)) * hk2 +
    (f.b0 ^ 2 * f.rm ^ 2 * cs * R * d * sn * f.sigmaI * k) * hRR

theorem away_closed (f : AField) (x y z : ℝ) (h : OffAxis f x y z) :
    ((f.eval x y z).1 * x + (f.eval x y z).2.1 * y) / hyp x y =
      f.sigmaI * f.b0 * (z - f.zm) / (safety f.q f.rminor (minorOf f x y z) * hyp x y) := by
  have hR := h.R
  have hq := h.reg.2.1
  have hRR := hyp_mul_self x y
  rw [eval_closed f h.rm]
  unfold minorOf
  generalize safety f.q f.rminor _ = q at *
  generalize hyp x y = R at *
  simp only
  field_simp
  linear_combination (-(f.sigmaI * f.b0 * (z - f.zm))) * hRR

/-- C154: the strength is stationary along the field exactly in the midplane. -/
theorem C154_midplane (f : AField) (x y z : ℝ) (h : OffAxis f x y z) (hI : f.sigmaI ^ 2 = 1) (hb : f.b0 ≠ 0) :
    alongField f x y z = 0 ↔ z = f.zm := by
  have hI' : f.sigmaI ≠ 0 := by intro h0; rw [h0] at hI; norm_num at hI
  have hq := h.reg.2.1
  have hs : Real.sqrt ((minorOf f x y z / (f.rm * safety f.q f.rminor (minorOf f x y z))) ^ 2 + 1) ≠ 0 :=
    (Real.sqrt_pos.2 (by positivity)).ne'
  have ha : (f.evalDerivatives x y z).babs ≠ 0 := by
    rw [babs_closed]
    exact mul_ne_zero (mul_ne_zero hb h.rm) (mul_ne_zero (inv_ne_zero h.R) hs)
  rw [C154_along f x y z h, away_closed f x y z h]
  constructor
  · intro e
    rcases mul_eq_zero.1 e with e | e
    · rcases div_eq_zero_iff.1 e with e | e
      · exact absurd (neg_eq_zero.1 e) ha
      · exact absurd e h.R
    · rcases div_eq_zero_iff.1 e with e | e
      · rcases mul_eq_zero.1 e with e | e
        · exact absurd e (mul_ne_zero hI' hb)
        · linarith
      · exact absurd e (mul_ne_zero hq h.R)
  · rintro rfl
    simp

/-- C154: a particle that follows the field towards the axis of symmetry comes to a stronger field, one
that goes away from it to a weaker one. -/
theorem C154_towards (f : AField) (x y z : ℝ) (h : OffAxis f x y z) (hpos : 0 < f.b0 * f.rm) :
    0 < alongField f x y z ↔ (f.eval x y z).1 * x + (f.eval x y z).2.1 * y < 0 := by
  have hRpos : 0 < hyp x y := lt_of_le_of_ne (hyp_nonneg _ _) (Ne.symm h.R)
  have ha : 0 < (f.evalDerivatives x y z).babs := by
    rw [babs_closed]
    have : 0 < Real.sqrt ((hyp (f.rm - hyp x y) (z - f.zm) / (f.rm * safety f.q f.rminor (hyp (f.rm - hyp x y) (z - f.zm)))) ^ 2 + 1) :=
      Real.sqrt_pos.2 (by positivity)
    positivity
  rw [C154_along f x y z h]
  generalize (f.evalDerivatives x y z).babs = b at *
  generalize (f.eval x y z).1 * x + (f.eval x y z).2.1 * y = c
  rw [show -b / hyp x y * (c / hyp x y) = b / (hyp x y * hyp x y) * (-c) from by field_simp]
  rw [mul_pos_iff_of_pos_left (by positivity)]
  exact neg_pos

/-- C154: off the magnetic axis the reported gradient is right along the field, for every profile of the
safety factor (although it is not right across the flux surfaces, C49): on a curve with the direction of
the field the strength changes as the reported gradient says. -/
theorem C154_follow (f : AField) (x y z : ℝ → ℝ) (k t : ℝ) (h : OffAxis f (x t) (y t) (z t)) (hr : minorOf f (x t) (y t) (z t) ≠ 0)
    (hx : HasDerivAt x (k * (f.eval (x t) (y t) (z t)).1) t) (hy : HasDerivAt y (k * (f.eval (x t) (y t) (z t)).2.1) t)
    (hz : HasDerivAt z (k * (f.eval (x t) (y t) (z t)).2.2) t) :
    HasDerivAt (fun s => (f.evalDerivatives (x s) (y s) (z s)).babs) (k * alongField f (x t) (y t) (z t)) t := by
  refine (C49_exact f x y z _ _ _ t hx hy hz h hr).congr_deriv ?_
  have hnorm : (rhat f (x t) (y t) (z t)).1 * (f.eval (x t) (y t) (z t)).1 + (rhat f (x t) (y t) (z t)).2.1 * (f.eval (x t) (y t) (z t)).2.1 +
      (rhat f (x t) (y t) (z t)).2.2 * (f.eval (x t) (y t) (z t)).2.2 = 0 := by
    have hR := h.R
    have hq := h.reg.2.1
    have hRR := hyp_mul_self (x t) (y t)
    rw [eval_closed f h.rm]
    unfold rhat
    unfold minorOf at hr
    simp only
    generalize safety f.q f.rminor _ = q at *
    generalize hyp (f.rm - hyp (x t) (y t)) (z t - f.zm) = r at *
    generalize hyp (x t) (y t) = R at *
    field_simp
    linear_combination ((f.rm - R) * (z t - f.zm) * f.sigmaI * f.b0) * hRR
  unfold alongField
  linear_combination (k * gradErr f (x t) (y t) (z t)) * hnorm

/-- The hypotheses of `C154_extremes` hold, e.g., beside the magnetic axis of a field with a linear
profile. -/
example : OffAxis (mkAField 5 2 0 1 .ccw .cw (.linear 2 1)) 3 0 0 ∧ minorOf (mkAField 5 2 0 1 .ccw .cw (.linear 2 1)) 3 0 0 < 2 ∧
    (mkAField 5 2 0 1 .ccw .cw (.linear 2 1)).sigmaB ^ 2 = 1 ∧ (mkAField 5 2 0 1 .ccw .cw (.linear 2 1)).sigmaI ^ 2 = 1 := by
  have h3 : hyp 3 0 = 3 := hyp_of_nonneg (by norm_num)
  have h1 : hyp (-1) 0 = 1 := by norm_num [hyp]
  have e : (2 : ℝ) - 3 = -1 := by norm_num
  refine ⟨⟨by norm_num [mkAField], by rw [h3]; norm_num, ⟨by norm_num [mkAField], ?_, trivial⟩⟩, ?_, by norm_num [mkAField, FieldSign.val],
    by norm_num [mkAField, FieldSign.val]⟩
  · simp only [mkAField, h3, e, sub_zero, h1, safety]; norm_num
  · simp only [minorOf, mkAField, h3, e, sub_zero, h1]; norm_num

end

end Softlib
