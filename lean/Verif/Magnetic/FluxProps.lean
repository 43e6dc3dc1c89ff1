/-
C151: the flux reported by the analytical field and the flux of the field.
Model: AnalyticModel.lean.
-/
import Verif.Magnetic.DirectionProps
import Mathlib.Tactic.Positivity

namespace Softlib

open Softlib.Magnetic

noncomputable section

/-- Component of a vector at `x, y` away from the axis of symmetry. -/
def radialPart (B : ℝ × ℝ × ℝ) (x y : ℝ) : ℝ := (B.1 * x + B.2.1 * y) / hyp x y

/-- The field is that of the flux with these derivatives in the distance from the axis and in height: a ring around the axis of symmetry that
moves gains the flux that it sweeps over. -/
def FluxOf (B : ℝ × ℝ × ℝ) (x y dR dZ : ℝ) : Prop :=
  dZ = 2 * Real.pi * hyp x y * radialPart B x y ∧ dR = -(2 * Real.pi * hyp x y * B.2.2)

theorem poloidal_parts (f : AField) (x y z : ℝ) (hrm : f.rm ≠ 0) (hR : hyp x y ≠ 0) (hq : safety f.q f.rminor (hyp (f.rm - hyp x y) (z - f.zm)) ≠ 0) :
    2 * Real.pi * hyp x y * radialPart (f.eval x y z) x y =
      2 * Real.pi * (f.sigmaI * f.b0) * (z - f.zm) / safety f.q f.rminor (hyp (f.rm - hyp x y) (z - f.zm)) ∧
    2 * Real.pi * hyp x y * (f.eval x y z).2.2 =
      2 * Real.pi * (f.sigmaI * f.b0) * (f.rm - hyp x y) / safety f.q f.rminor (hyp (f.rm - hyp x y) (z - f.zm)) := by
  have hRR := hyp_mul_self x y
  rw [eval_closed f hrm]
  unfold radialPart
  dsimp only
  generalize safety f.q f.rminor _ = q at hq ⊢
  generalize hyp x y = R at hR hRR ⊢
  refine ⟨?_, by field_simp⟩
  field_simp
  linear_combination (-(f.b0 * f.sigmaI * (z - f.zm))) * hRR

/-- **C151** The derivatives of the reported flux are those of the flux of the field times `1 - (r dq/dr) / (2 q)`. -/
theorem C151_factor_partial (f : AField) (x y z Q D : ℝ) (h : OffAxis f x y z)
    (hQ : Q = safety f.q f.rminor (hyp (f.rm - hyp x y) (z - f.zm))) (hD : D = rdqdr f.q f.rminor (hyp (f.rm - hyp x y) (z - f.zm))) :
    (f.fluxDerivatives x y z).2.2 = 2 * Real.pi * hyp x y * radialPart (f.eval x y z) x y * (1 - D / (2 * Q)) ∧
    (f.fluxDerivatives x y z).2.1 = -(2 * Real.pi * hyp x y * (f.eval x y z).2.2) * (1 - D / (2 * Q)) := by
  obtain ⟨hrm, hR, hreg⟩ := h
  have hq0 := hreg.2.1
  obtain ⟨a, b⟩ := poloidal_parts f x y z hrm hR hq0
  rw [a, b]
  unfold AField.fluxDerivatives
  simp only [sqrt_hyp, hyp_comm (z - f.zm)]
  rw [← hQ] at hq0 ⊢
  rw [← hD]
  constructor
  · field_simp
  · field_simp
    ring

/-- **C151** Off the magnetic axis the reported flux is the flux of the field exactly where the safety factor is stationary. -/
theorem C151_exact_iff (f : AField) (x y z : ℝ) (h : OffAxis f x y z) (hr : hyp (f.rm - hyp x y) (z - f.zm) ≠ 0) (hb : f.b0 ≠ 0) (hs : f.sigmaI ≠ 0) :
    FluxOf (f.eval x y z) x y (f.fluxDerivatives x y z).2.1 (f.fluxDerivatives x y z).2.2 ↔
      rdqdr f.q f.rminor (hyp (f.rm - hyp x y) (z - f.zm)) = 0 := by
  obtain ⟨a, b⟩ := C151_factor_partial f x y z _ _ h rfl rfl
  obtain ⟨hrm, hR, hreg⟩ := h
  have hq0 := hreg.2.1
  obtain ⟨c, d⟩ := poloidal_parts f x y z hrm hR hq0
  unfold FluxOf
  rw [a, b, c, d]
  have hrr := hyp_mul_self (f.rm - hyp x y) (z - f.zm)
  generalize hyp (f.rm - hyp x y) (z - f.zm) = r at *
  generalize safety f.q f.rminor r = Q at *
  generalize rdqdr f.q f.rminor r = D at *
  generalize z - f.zm = Z at *
  generalize f.rm - hyp x y = X at *
  have hk : 2 * Real.pi * (f.sigmaI * f.b0) ≠ 0 := mul_ne_zero Real.two_pi_pos.ne' (mul_ne_zero hs hb)
  constructor
  · rintro ⟨h1, h2⟩
    have key : ∀ W : ℝ, W ≠ 0 → 2 * Real.pi * (f.sigmaI * f.b0) * W / Q * (1 - D / (2 * Q)) = 2 * Real.pi * (f.sigmaI * f.b0) * W / Q → D = 0 := by
      intro W hW e
      have hne : 2 * Real.pi * (f.sigmaI * f.b0) * W / Q ≠ 0 := div_ne_zero (mul_ne_zero hk hW) hq0
      have : 1 - D / (2 * Q) = 1 := mul_left_cancel₀ hne (by rw [e, mul_one])
      have : D / (2 * Q) = 0 := by linarith
      exact (div_eq_zero_iff.1 this).resolve_right (mul_ne_zero two_ne_zero hq0)
    by_cases hZ : Z = 0
    · have hX : X ≠ 0 := by
        intro hX
        rw [hX, hZ] at hrr
        exact hr (mul_self_eq_zero.1 (by rw [hrr]; norm_num))
      exact key X hX (by linarith)
    · exact key Z hZ h1
  · rintro rfl
    simp

/-- **C151** With a constant safety factor the reported flux is the flux of the field, everywhere. -/
theorem C151_constant_partial (f : AField) (x y z : ℝ) (h : OffAxis f x y z) (hq : (∃ a, f.q = .constant a) ∨ (∃ a, f.q = .current a none) ∨ f.q = .other) :
    FluxOf (f.eval x y z) x y (f.fluxDerivatives x y z).2.1 (f.fluxDerivatives x y z).2.2 := by
  obtain ⟨a, b⟩ := C151_factor_partial f x y z _ _ h rfl rfl
  have hD : ∀ r, rdqdr f.q f.rminor r = 0 := by
    intro r
    rcases hq with ⟨a, hq⟩ | ⟨a, hq⟩ | hq <;> rw [hq] <;> rfl
  rw [hD, zero_div, sub_zero, mul_one] at a b
  exact ⟨a, b⟩

/-- **C151 does not hold as stated.** With a linear safety factor that is not constant, the reported flux is wrong everywhere off the magnetic axis. -/
theorem C151_refuted (f : AField) (a b x y z : ℝ) (hq : f.q = .linear a b) (ha : a ≠ 0) (h : OffAxis f x y z) (hr : hyp (f.rm - hyp x y) (z - f.zm) ≠ 0)
    (hb : f.b0 ≠ 0) (hs : f.sigmaI ≠ 0) : ¬ FluxOf (f.eval x y z) x y (f.fluxDerivatives x y z).2.1 (f.fluxDerivatives x y z).2.2 := by
  rw [C151_exact_iff f x y z h hr hb hs, hq]
  obtain ⟨_, _, hreg⟩ := h
  have := hreg.1.ne'
  exact mul_ne_zero ha (div_ne_zero hr this)

/-- **C151** What the flux should be: any function of the distance from the magnetic axis with derivative `2 π σ B₀ r / q(r)` is the flux of the field. -/
theorem C151_flux_of_field (f : AField) (G : ℝ → ℝ) (x y z : ℝ → ℝ) (u v w t r : ℝ) (hx : HasDerivAt x u t) (hy : HasDerivAt y v t) (hz : HasDerivAt z w t)
    (h : OffAxis f (x t) (y t) (z t)) (hr : r = hyp (f.rm - hyp (x t) (y t)) (z t - f.zm)) (hr0 : r ≠ 0)
    (hG : HasDerivAt G (2 * Real.pi * (f.sigmaI * f.b0) * r / safety f.q f.rminor r) r) :
    ∃ dR dZ, FluxOf (f.eval (x t) (y t) (z t)) (x t) (y t) dR dZ ∧
      HasDerivAt (fun s => G (hyp (f.rm - hyp (x s) (y s)) (z s - f.zm))) (dR * ((x t * u + y t * v) / hyp (x t) (y t)) + dZ * w) t := by
  obtain ⟨hrm, hR, hreg⟩ := h
  have hq0 := hreg.2.1
  obtain ⟨c, d⟩ := poloidal_parts f (x t) (y t) (z t) hrm hR hq0
  refine ⟨_, _, ⟨rfl, rfl⟩, ?_⟩
  rw [c, d]
  have hd := hyp_deriv ((hyp_deriv hx hy hR).const_sub f.rm) (hz.sub_const f.zm) (by rw [← hr]; exact hr0)
  rw [hr] at hG
  have := hG.comp t hd
  refine this.congr_deriv ?_
  rw [← hr] at hq0 ⊢
  field_simp

/-- The circle of radius one half around the magnetic axis, safety factor `r + 1`. -/
example : ¬ FluxOf ((mkAField 1 2 0 1 .ccw .ccw (.linear 1 1)).eval 2 0 (1 / 2)) 2 0
    ((mkAField 1 2 0 1 .ccw .ccw (.linear 1 1)).fluxDerivatives 2 0 (1 / 2)).2.1 ((mkAField 1 2 0 1 .ccw .ccw (.linear 1 1)).fluxDerivatives 2 0 (1 / 2)).2.2 := by
  have e1 : hyp 2 0 = 2 := by unfold hyp; rw [show (2 : ℝ) ^ 2 + 0 ^ 2 = 2 ^ 2 by norm_num, Real.sqrt_sq (by norm_num)]
  have e2 : hyp 0 (1 / 2) = 1 / 2 := by unfold hyp; rw [show (0 : ℝ) ^ 2 + (1 / 2) ^ 2 = (1 / 2) ^ 2 by norm_num, Real.sqrt_sq (by norm_num)]
  refine C151_refuted _ 1 1 2 0 (1 / 2) rfl one_ne_zero ?_ ?_ ?_ ?_
  · refine ⟨?_, ?_, ?_⟩ <;> norm_num [mkAField, e1, e2, QProfile.Regular, safety]
  · norm_num [mkAField, e1, e2]
  · norm_num [mkAField]
  · norm_num [mkAField, FieldSign.val]

end

end Softlib
