/-
C159: the symmetries of the analytical field: turning about the axis of symmetry, units of length and
of field strength, the height at which the device stands, and up and down.

Source: /repo/src/MagneticField/MagneticFieldAnalytical2D.cpp 113-130 (`Eval`), 144-194
(`EvalDerivatives`), 205-216 (`EvalFlux`), 231-253 (`EvalFluxDerivatives`), by the model `AField` of
C48-C51.  The hypothesis `OffAxis` (no denominator is zero) is where the model is the code in exact
arithmetic; it is not used otherwise.
-/
import Verif.Magnetic.AnalyticProps

namespace Softlib

open Magnetic

noncomputable section

/-- Rotation about the axis of symmetry. -/
def turnMat (φ : ℝ) : Fin 3 → Fin 3 → ℝ :=
  ![![Real.cos φ, -Real.sin φ, 0], ![Real.sin φ, Real.cos φ, 0], ![0, 0, 1]]

def turnVec (φ : ℝ) (v : ℝ × ℝ × ℝ) : ℝ × ℝ × ℝ :=
  (Real.cos φ * v.1 - Real.sin φ * v.2.1, Real.sin φ * v.1 + Real.cos φ * v.2.1, v.2.2)

/-- The rotated field, gradient and curl have the components of rotated vectors, the Jacobian those of
a rotated tensor. -/
def turnData (φ : ℝ) (d : MagData) : MagData :=
  ⟨turnVec φ d.B, d.babs, turnVec φ d.gradB, turnVec φ d.curlB,
    fun i j => ∑ k, ∑ n, turnMat φ i k * d.J k n * turnMat φ j n⟩

theorem hyp_turn (φ x y : ℝ) : hyp (Real.cos φ * x - Real.sin φ * y) (Real.sin φ * x + Real.cos φ * y) = hyp x y := by
  unfold hyp
  congr 1
  linear_combination (x ^ 2 + y ^ 2) * Real.cos_sq_add_sin_sq φ

theorem flux_radius (x y : ℝ) : Real.sqrt (x * x + y * y) = hyp x y := by
  unfold hyp; congr 1; ring

/-- C159, turning: what `EvalDerivatives` reports in a turned point are the turned vectors and the turned
Jacobian. -/
theorem C159_turned (f : AField) (x y z φ : ℝ) (_h : OffAxis f x y z) :
    f.evalDerivatives (Real.cos φ * x - Real.sin φ * y) (Real.sin φ * x + Real.cos φ * y) z
      = turnData φ (f.evalDerivatives x y z) := by
  have hcs := Real.cos_sq_add_sin_sq φ
  unfold AField.evalDerivatives turnData
  simp only [hyp_turn, turnVec, MagData.mk.injEq, Prod.mk.injEq, true_and]
  generalize hyp (f.rm - hyp x y) (z - f.zm) = r
  generalize hyp x y = R
  generalize safety f.q f.rminor r = q
  generalize rdqdr f.q f.rminor r = d
  generalize (if r ≠ 0 then (z - f.zm) / r else 0) = st
  generalize (if r ≠ 0 then (f.rm - R) / r else 0) = ct
  refine ⟨⟨by ring, by ring, trivial⟩, ⟨by ring, by ring, trivial⟩, ⟨by ring, by ring, trivial⟩, ?_⟩
  funext i j
  simp only [Fin.sum_univ_three, turnMat]
  generalize Real.cos φ = c at *
  generalize Real.sin φ = s at *
  fin_cases i <;> fin_cases j <;> simp
  · linear_combination -(f.b0 * f.rm * (f.sigmaI * (z - f.zm) / (q * f.rm * R * R))) * hcs
  · linear_combination (f.b0 * f.rm * (f.sigmaB / (R * R))) * hcs
  · ring
  · linear_combination -(f.b0 * f.rm * (f.sigmaB / (R * R))) * hcs
  · linear_combination -(f.b0 * f.rm * (f.sigmaI * (z - f.zm) / (q * f.rm * R * R))) * hcs
  · ring
  · ring
  · ring

/-- C159, turning, `Eval`. -/
theorem C159_turned_field (f : AField) (x y z φ : ℝ) (h : OffAxis f x y z) :
    f.eval (Real.cos φ * x - Real.sin φ * y) (Real.sin φ * x + Real.cos φ * y) z = turnVec φ (f.eval x y z) := by
  have := congrArg MagData.B (C159_turned f x y z φ h)
  exact this

/-- C159, turning, `EvalFlux` and `EvalFluxDerivatives`: the flux and its derivatives are the same all
around. -/
theorem C159_turned_flux (f : AField) (x y z φ : ℝ) (_h : OffAxis f x y z) :
    f.flux (Real.cos φ * x - Real.sin φ * y) (Real.sin φ * x + Real.cos φ * y) z = f.flux x y z ∧
    f.fluxDerivatives (Real.cos φ * x - Real.sin φ * y) (Real.sin φ * x + Real.cos φ * y) z = f.fluxDerivatives x y z := by
  constructor
  · simp only [AField.flux, flux_radius, hyp_turn]
  · simp only [AField.fluxDerivatives, flux_radius, hyp_turn]

/-! ### units -/

/-- The same device in other units: `l` units of length make one of the old, `b` units of field strength
one of the old, and heights are measured from a level `c` lower. -/
def inUnits (l b c : ℝ) (f : AField) : AField :=
  ⟨b * f.b0, l * f.rm, l * f.zm + c, l * f.rminor, f.sigmaB, f.sigmaI, f.q⟩

def scaleVec (k : ℝ) (v : ℝ × ℝ × ℝ) : ℝ × ℝ × ℝ := (k * v.1, k * v.2.1, k * v.2.2)

theorem hyp_unit {l : ℝ} (hl : 0 < l) (a b : ℝ) : hyp (l * a) (l * b) = l * hyp a b := by
  unfold hyp
  have : (l * a) ^ 2 + (l * b) ^ 2 = l ^ 2 * (a ^ 2 + b ^ 2) := by ring
  rw [this, Real.sqrt_mul (by positivity), Real.sqrt_sq hl.le]

theorem safety_unit {l : ℝ} (hl : l ≠ 0) (p : QProfile) (rminor r : ℝ) : safety p (l * rminor) (l * r) = safety p rminor r := by
  unfold safety; rw [mul_div_mul_left _ _ hl]

theorem rdqdr_unit {l : ℝ} (hl : l ≠ 0) (p : QProfile) (rminor r : ℝ) : rdqdr p (l * rminor) (l * r) = rdqdr p rminor r := by
  unfold rdqdr; rw [mul_div_mul_left _ _ hl]

set_option maxHeartbeats 1000000 in
/-- C159, units: field and strength scale with the unit of field strength, gradient, curl and Jacobian
also inversely with that of length. -/
theorem C159_units (f : AField) (x y z l b c : ℝ) (hl : 0 < l) (_h : OffAxis f x y z) :
    (inUnits l b c f).evalDerivatives (l * x) (l * y) (l * z + c)
      = ⟨scaleVec b (f.evalDerivatives x y z).B, b * (f.evalDerivatives x y z).babs,
          scaleVec (b / l) (f.evalDerivatives x y z).gradB, scaleVec (b / l) (f.evalDerivatives x y z).curlB,
          fun i j => b / l * (f.evalDerivatives x y z).J i j⟩ := by
  have hl0 : l ≠ 0 := hl.ne'
  have e1 : l * z + c - (l * f.zm + c) = l * (z - f.zm) := by ring
  unfold AField.evalDerivatives inUnits scaleVec
  simp only [hyp_unit hl, e1, ← mul_sub, safety_unit hl0, rdqdr_unit hl0, ne_eq, mul_eq_zero, hl0, false_or,
    mul_div_mul_left _ _ hl0, MagData.mk.injEq, Prod.mk.injEq, mul_assoc l]
  generalize hyp (f.rm - hyp x y) (z - f.zm) = r
  generalize hyp x y = R
  generalize safety f.q f.rminor r = q
  generalize rdqdr f.q f.rminor r = d
  generalize (if ¬ r = 0 then (z - f.zm) / r else 0) = st
  generalize (if ¬ r = 0 then (f.rm - R) / r else 0) = ct
  generalize Real.sqrt (r / (f.rm * q) * (r / (f.rm * q)) + 1) = w
  refine ⟨⟨?_, ?_, ?_⟩, ?_, ⟨?_, ?_, ?_⟩, ⟨?_, ?_, ?_⟩, ?_⟩
  all_goals try (field_simp)
  · simp
  funext i j
  fin_cases i <;> fin_cases j <;> simp <;> field_simp

/-- C159, units, `Eval`. -/
theorem C159_units_field (f : AField) (x y z l b c : ℝ) (hl : 0 < l) (h : OffAxis f x y z) :
    (inUnits l b c f).eval (l * x) (l * y) (l * z + c) = scaleVec b (f.eval x y z) :=
  congrArg MagData.B (C159_units f x y z l b c hl h)

/-- C159, units, `EvalFlux` and `EvalFluxDerivatives`: the flux scales as a field strength times an area. -/
theorem C159_units_flux (f : AField) (x y z l b c : ℝ) (hl : 0 < l) (_h : OffAxis f x y z) :
    (inUnits l b c f).flux (l * x) (l * y) (l * z + c) = b * l ^ 2 * f.flux x y z ∧
    (inUnits l b c f).fluxDerivatives (l * x) (l * y) (l * z + c)
      = (b * l ^ 2 * (f.fluxDerivatives x y z).1, b * l * (f.fluxDerivatives x y z).2.1, b * l * (f.fluxDerivatives x y z).2.2) := by
  have hl0 : l ≠ 0 := hl.ne'
  have e1 : l * z + c - (l * f.zm + c) = l * (z - f.zm) := by ring
  constructor
  · simp only [AField.flux, inUnits, flux_radius, hyp_unit hl, e1, ← mul_sub, safety_unit hl0]
    ring
  · simp only [AField.fluxDerivatives, inUnits, flux_radius, hyp_unit hl, e1, ← mul_sub, safety_unit hl0, rdqdr_unit hl0, Prod.mk.injEq]
    refine ⟨?_, ?_, ?_⟩ <;> ring

/-! ### up and down -/

/-- The same device with the toroidal field the other way around. -/
def reversedToroidal (f : AField) : AField := ⟨f.b0, f.rm, f.zm, f.rminor, -f.sigmaB, f.sigmaI, f.q⟩

/-- Reflection in a horizontal plane. -/
def upDown : Fin 3 → ℝ := ![1, 1, -1]

/-- C159, up and down: in the mirror image of a point in the plane of the magnetic axis the field is
minus the mirror image of the field with the toroidal direction reversed; so are strength, gradient,
curl and Jacobian. -/
theorem C159_mirrored (f : AField) (x y z : ℝ) (_h : OffAxis f x y z) :
    f.evalDerivatives x y (2 * f.zm - z) =
      ⟨(-((reversedToroidal f).evalDerivatives x y z).B.1, -((reversedToroidal f).evalDerivatives x y z).B.2.1,
          ((reversedToroidal f).evalDerivatives x y z).B.2.2),
        ((reversedToroidal f).evalDerivatives x y z).babs,
        (((reversedToroidal f).evalDerivatives x y z).gradB.1, ((reversedToroidal f).evalDerivatives x y z).gradB.2.1,
          -((reversedToroidal f).evalDerivatives x y z).gradB.2.2),
        ((reversedToroidal f).evalDerivatives x y z).curlB,
        fun i j => -(upDown i * ((reversedToroidal f).evalDerivatives x y z).J i j * upDown j)⟩ := by
  have e1 : 2 * f.zm - z - f.zm = -(z - f.zm) := by ring
  have e2 : hyp (f.rm - hyp x y) (-(z - f.zm)) = hyp (f.rm - hyp x y) (z - f.zm) := by unfold hyp; rw [neg_sq]
  have e3 : ∀ r : ℝ, (if r ≠ 0 then -(z - f.zm) / r else 0) = -(if r ≠ 0 then (z - f.zm) / r else 0) := by
    intro r; split_ifs <;> ring
  unfold AField.evalDerivatives reversedToroidal
  simp only [e1, e2, e3, MagData.mk.injEq, Prod.mk.injEq, true_and]
  generalize hyp (f.rm - hyp x y) (z - f.zm) = r
  generalize hyp x y = R
  generalize safety f.q f.rminor r = q
  generalize rdqdr f.q f.rminor r = d
  generalize (if r ≠ 0 then (z - f.zm) / r else 0) = st
  generalize (if r ≠ 0 then (f.rm - R) / r else 0) = ct
  refine ⟨⟨by ring, by ring, trivial⟩, ⟨by ring, by ring, by ring⟩, ?_⟩
  funext i j
  simp only [upDown]
  fin_cases i <;> fin_cases j <;> simp <;> ring

/-- C159, up and down, `Eval`: the field away from the axis of symmetry changes sign, the vertical and
the toroidal field are the same. -/
theorem C159_mirrored_field (f : AField) (x y z : ℝ) (h : OffAxis f x y z) :
    x * (f.eval x y (2 * f.zm - z)).1 + y * (f.eval x y (2 * f.zm - z)).2.1 = -(x * (f.eval x y z).1 + y * (f.eval x y z).2.1) ∧
    x * (f.eval x y (2 * f.zm - z)).2.1 - y * (f.eval x y (2 * f.zm - z)).1 = x * (f.eval x y z).2.1 - y * (f.eval x y z).1 ∧
    (f.eval x y (2 * f.zm - z)).2.2 = (f.eval x y z).2.2 := by
  have hB : f.eval x y (2 * f.zm - z) = _ := congrArg MagData.B (C159_mirrored f x y z h)
  rw [hB]
  simp only [AField.evalDerivatives, AField.eval, reversedToroidal]
  refine ⟨?_, ?_, rfl⟩ <;> ring

/-- C159, up and down, `EvalFlux` and `EvalFluxDerivatives`. -/
theorem C159_mirrored_flux (f : AField) (x y z : ℝ) (_h : OffAxis f x y z) :
    f.flux x y (2 * f.zm - z) = f.flux x y z ∧
    f.fluxDerivatives x y (2 * f.zm - z) =
      ((f.fluxDerivatives x y z).1, (f.fluxDerivatives x y z).2.1, -(f.fluxDerivatives x y z).2.2) := by
  have e1 : 2 * f.zm - z - f.zm = -(z - f.zm) := by ring
  constructor
  · simp only [AField.flux, e1, neg_mul_neg]
  · simp only [AField.fluxDerivatives, e1, neg_mul_neg, Prod.mk.injEq, true_and]
    ring

/-- C159, the plane of the magnetic axis is needed: a field is not its own mirror image in another plane. -/
theorem C159_plane_needed :
    ((mkAField 1 2 1 1 .ccw .ccw (.constant 1)).eval 2 0 1).1 ≠ -((mkAField 1 2 1 1 .ccw .ccw (.constant 1)).eval 2 0 (-1)).1 := by
  have h2 : hyp 2 0 = 2 := by unfold hyp; rw [show (2 : ℝ) ^ 2 + 0 ^ 2 = 2 ^ 2 by norm_num, Real.sqrt_sq (by norm_num)]
  have h0 : hyp 0 (-2) = 2 := by unfold hyp; rw [show (0 : ℝ) ^ 2 + (-2) ^ 2 = 2 ^ 2 by norm_num, Real.sqrt_sq (by norm_num)]
  have h00 : hyp 0 0 = 0 := by unfold hyp; simp
  have e : (-1 : ℝ) - 1 = -2 := by norm_num
  simp only [AField.eval, mkAField, h2, sub_self, e, h0, h00, FieldSign.val, safety]
  norm_num

/-- A point of a field that is off the axis, as the theorems ask. -/
example : OffAxis (mkAField 1 2 0 1 .ccw .ccw (.constant 1)) 2 0 1 := by
  refine ⟨by norm_num [mkAField], ?_, ?_⟩
  · unfold hyp; norm_num
  · norm_num [mkAField, QProfile.Regular, safety]

end

end Softlib
