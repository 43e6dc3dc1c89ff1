/-
C152: the current density of the analytical field with the safety factor of type "current".
Model: AnalyticModel.lean.
-/
import Verif.Magnetic.DirectionProps

namespace Softlib

open Softlib.Magnetic

noncomputable section

/-- Toroidal component of a vector at `x, y`. -/
def toroidalPart (V : ℝ × ℝ × ℝ) (x y : ℝ) : ℝ := (x * V.2.1 - y * V.1) / hyp x y

theorem current_toroidal (f : AField) (x y z : ℝ) (hR : hyp x y ≠ 0) :
    toroidalPart (f.evalDerivatives x y z).curlB x y =
      f.sigmaI * f.b0 * (1 / hyp x y) / safety f.q f.rminor (hyp (f.rm - hyp x y) (z - f.zm)) *
        (f.rm * (1 / hyp x y) + 1 - rdqdr f.q f.rminor (hyp (f.rm - hyp x y) (z - f.zm)) / safety f.q f.rminor (hyp (f.rm - hyp x y) (z - f.zm))) := by
  have hRR := hyp_mul_self x y
  unfold toroidalPart AField.evalDerivatives
  dsimp only
  generalize safety f.q f.rminor (hyp (f.rm - hyp x y) (z - f.zm)) = q
  generalize rdqdr f.q f.rminor (hyp (f.rm - hyp x y) (z - f.zm)) = D
  generalize hyp x y = R at *
  generalize f.sigmaI * f.b0 * (1 / R) / q * (f.rm * (1 / R) + 1 - D / q) = k
  field_simp
  linear_combination (-k) * hRR

/-- **C152** The toroidal component of the reported curl: besides `2 σ B₀ (1 - (r/a)ᵇ) / (q₀ R)` there is a part that changes sign from the inside to the
outside. -/
theorem C152_density_partial (f : AField) (q0 b x y z r : ℝ) (hq : f.q = .current q0 (some b)) (h : OffAxis f x y z)
    (hr : r = hyp (f.rm - hyp x y) (z - f.zm)) (hq0 : q0 ≠ 0) :
    toroidalPart (f.evalDerivatives x y z).curlB x y =
      f.sigmaI * f.b0 / hyp x y * (2 / q0 * (1 - (r / f.rminor) ^ b) + (f.rm - hyp x y) / (hyp x y * safety f.q f.rminor r)) := by
  obtain ⟨hrm, hR, hreg⟩ := h
  rw [current_toroidal f x y z hR, ← hr]
  rw [← hr, hq] at hreg
  obtain ⟨_, _, hb, hden, _⟩ := hreg
  rw [hq]
  simp only [safety, rdqdr]
  generalize (r / f.rminor) ^ b = w at *
  generalize hyp x y = R at *
  obtain ⟨d, hd⟩ : ∃ d, d = 1 - 2 / (b + 2) * w := ⟨_, rfl⟩
  rw [← hd] at hden ⊢
  have hw : (b + 2) * d = b + 2 - 2 * w := by rw [hd]; field_simp
  field_simp
  linear_combination (2 * R * f.sigmaI * f.b0) * hw

/-- **C152** At the distance of the magnetic axis from the axis of symmetry the current density is the one the profile is named for. -/
theorem C152_middle_partial (f : AField) (q0 b x y z r : ℝ) (hq : f.q = .current q0 (some b)) (h : OffAxis f x y z)
    (hr : r = hyp (f.rm - hyp x y) (z - f.zm)) (hq0 : q0 ≠ 0) (hm : hyp x y = f.rm) :
    toroidalPart (f.evalDerivatives x y z).curlB x y = 2 * (f.sigmaI * f.b0) / (q0 * f.rm) * (1 - (r / f.rminor) ^ b) := by
  rw [C152_density_partial f q0 b x y z r hq h hr hq0, hm, sub_self, zero_div, add_zero]
  have := h.1
  field_simp

/-- **C152 does not hold as stated.** At the edge, where the profile has no current, there is one unless the point is as far from the axis of symmetry as the magnetic
axis; its direction on the outside is opposite to that of the current. -/
theorem C152_refuted (f : AField) (q0 b x y z : ℝ) (hq : f.q = .current q0 (some b)) (h : OffAxis f x y z)
    (hr : f.rminor = hyp (f.rm - hyp x y) (z - f.zm)) (hq0 : 0 < q0) (hb : 0 < b) (hB : 0 < f.b0) (hs : f.sigmaI = 1) :
    (f.rm < hyp x y → toroidalPart (f.evalDerivatives x y z).curlB x y < 0) ∧
    (hyp x y < f.rm → 0 < toroidalPart (f.evalDerivatives x y z).curlB x y) := by
  have e := C152_density_partial f q0 b x y z f.rminor hq h hr hq0.ne'
  obtain ⟨_, hR, hreg⟩ := h
  have hm := hreg.1
  have hRp : 0 < hyp x y := lt_of_le_of_ne (Real.sqrt_nonneg _) hR.symm
  rw [e, div_self hm.ne', Real.one_rpow, sub_self, mul_zero, zero_add, hs, one_mul]
  have hS : 0 < safety f.q f.rminor f.rminor := by
    rw [hq]
    simp only [safety]
    rw [div_self hm.ne', Real.one_rpow]
    refine div_pos hq0 ?_
    rw [mul_one, sub_pos, div_lt_one (by linarith)]
    linarith
  refine ⟨fun hlt => ?_, fun hlt => ?_⟩
  · exact mul_neg_of_pos_of_neg (div_pos hB hRp) (div_neg_of_neg_of_pos (by linarith) (mul_pos hRp hS))
  · exact mul_pos (div_pos hB hRp) (div_pos (by linarith) (mul_pos hRp hS))

/-- The outermost point of a torus with radii two and one. -/
example : toroidalPart ((mkAField 1 2 0 1 .ccw .ccw (.current 1 (some 2))).evalDerivatives 3 0 0).curlB 3 0 < 0 := by
  have e1 : hyp 3 0 = 3 := by unfold hyp; rw [show (3 : ℝ) ^ 2 + 0 ^ 2 = 3 ^ 2 by norm_num, Real.sqrt_sq (by norm_num)]
  have e2 : hyp (-1) 0 = 1 := by unfold hyp; norm_num
  refine (C152_refuted _ 1 2 3 0 0 rfl ⟨?_, ?_, ?_⟩ ?_ one_pos two_pos ?_ ?_).1 ?_ <;>
    norm_num [mkAField, e1, e2, QProfile.Regular, safety, FieldSign.val]

end

end Softlib
