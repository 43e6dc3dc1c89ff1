/-
C149: number of particles and mean pitch of the analytical momentum distributions.
Model: ProfileModel.lean.
-/
import Verif.Dist.FormulaProps
import Mathlib.MeasureTheory.Integral.IntervalIntegral.FundThmCalculus

namespace Softlib

open Softlib.Dist

noncomputable section

/-- An even function, integrated over the pitch. -/
theorem even_integral (f : ℝ → ℝ) (hf : Continuous f) : ∫ x in (-1 : ℝ)..1, f |x| = 2 * ∫ x in (0 : ℝ)..1, f x := by
  have i : ∀ a b, IntervalIntegrable (fun x => f |x|) MeasureTheory.volume a b := fun a b => (hf.comp continuous_abs).intervalIntegrable a b
  rw [← intervalIntegral.integral_add_adjacent_intervals (i (-1) 0) (i 0 1)]
  have h1 : ∫ x in (0 : ℝ)..1, f |x| = ∫ x in (0 : ℝ)..1, f x := by
    refine intervalIntegral.integral_congr fun x hx => ?_
    rw [Set.uIcc_of_le (by norm_num)] at hx
    simp only [abs_of_nonneg hx.1]
  have h2 : ∫ x in (-1 : ℝ)..0, f |x| = ∫ x in (0 : ℝ)..1, f |x| := by
    have := intervalIntegral.integral_comp_neg (a := (0 : ℝ)) (b := 1) (fun x => f |x|)
    simp only [abs_neg, neg_zero] at this
    exact this.symm
  rw [h2, h1]
  ring

theorem exp_integral {A : ℝ} (hA : A ≠ 0) (b : ℝ) : ∫ x in (0 : ℝ)..1, Real.exp (b + A * x) = (Real.exp (b + A) - Real.exp b) / A := by
  have := intervalIntegral.integral_eq_sub_of_hasDerivAt (a := 0) (b := 1) (f := fun x => Real.exp (b + A * x) / A) (f' := fun x => Real.exp (b + A * x))
    (fun x _ => by
      have h := ((((hasDerivAt_id x).const_mul A).const_add b).exp).div_const A
      refine h.congr_deriv ?_
      simp only [id]
      field_simp) ((by fun_prop : Continuous fun x => Real.exp (b + A * x)).intervalIntegrable _ _)
  rw [this]
  simp only [mul_one, mul_zero, add_zero]
  ring

theorem exp_moment {A : ℝ} (hA : A ≠ 0) (b : ℝ) :
    ∫ x in (0 : ℝ)..1, x * Real.exp (b + A * x) = Real.exp (b + A) / A - (Real.exp (b + A) - Real.exp b) / A ^ 2 := by
  have := intervalIntegral.integral_eq_sub_of_hasDerivAt (a := 0) (b := 1) (f := fun x => x * Real.exp (b + A * x) / A - Real.exp (b + A * x) / A ^ 2)
    (f' := fun x => x * Real.exp (b + A * x))
    (fun x _ => by
      have h := (((hasDerivAt_id x).const_mul A).const_add b).exp
      have h' := (((hasDerivAt_id x).mul h).div_const A).sub (h.div_const (A ^ 2))
      refine h'.congr_deriv ?_
      simp only [id]
      field_simp
      ring) ((by fun_prop : Continuous fun x => x * Real.exp (b + A * x)).intervalIntegrable _ _)
  rw [this]
  simp only [mul_one, mul_zero, add_zero]
  ring

/-- Values at momentum `p`; zero where there is none. -/
def MomDist.value (m : MomDist) (p xi : ℝ) : ℝ := (m.eval p xi).getD 0

theorem avalanche_value (EHat lnLambda Zeff p g g0 A : ℝ) (hg : g = Real.sqrt (1 + p ^ 2))
    (hg0 : g0 = lnLambda * Real.sqrt (Zeff + 5)) (hA : A = (EHat + 1) / (Zeff + 1) * g)
    (h1 : p ≠ 0) (h2 : g0 ≠ 0) (h3 : A ≠ 0) (xi : ℝ) :
    MomDist.value (MomDist.mkAvalanche EHat lnLambda Zeff) p xi =
      electronMass * lightSpeed * A / (2 * Real.pi * g0 * p ^ 2) * (1 / (1 - Real.exp (-2 * A))) * Real.exp ((-g / g0 - A) + A * |xi|) := by
  rw [MomDist.value, C64_avalanche_formula EHat lnLambda Zeff p xi g g0 A hg hg0 hA h1 h2 h3, Option.getD_some,
    show -g / g0 - A * (1 - |xi|) = (-g / g0 - A) + A * |xi| by ring]
  ring

theorem exp_two_ne {A : ℝ} (h3 : A ≠ 0) : 1 - Real.exp (-2 * A) ≠ 0 := by
  intro h
  have : Real.exp (-2 * A) = 1 := by linarith
  rw [Real.exp_eq_one_iff] at this
  exact h3 (by linarith)

theorem exp_two_split (A : ℝ) : 1 - Real.exp (-2 * A) = (1 - Real.exp (-A)) * (1 + Real.exp (-A)) := by
  rw [show -2 * A = -A + -A by ring, Real.exp_add]
  ring

/-- **C149** The number of particles of the avalanche distribution at each momentum, over all pitches, is
`2 / (1 + exp (-A))` times that of the momentum distribution `exp (-γ/γ₀) / γ₀`. -/
theorem C149_number_partial (EHat lnLambda Zeff p g g0 A : ℝ) (hg : g = Real.sqrt (1 + p ^ 2))
    (hg0 : g0 = lnLambda * Real.sqrt (Zeff + 5)) (hA : A = (EHat + 1) / (Zeff + 1) * g)
    (h1 : p ≠ 0) (h2 : g0 ≠ 0) (h3 : A ≠ 0) :
    2 * Real.pi * p ^ 2 * (∫ x in (-1 : ℝ)..1, MomDist.value (MomDist.mkAvalanche EHat lnLambda Zeff) p x) =
      electronMass * lightSpeed * (Real.exp (-g / g0) / g0) * (2 / (1 + Real.exp (-A))) := by
  simp only [avalanche_value EHat lnLambda Zeff p g g0 A hg hg0 hA h1 h2 h3]
  rw [intervalIntegral.integral_const_mul, even_integral (fun x => Real.exp ((-g / g0 - A) + A * x)) (by fun_prop), exp_integral h3]
  have e1 : 1 + Real.exp (-A) ≠ 0 := by positivity
  have e2 : 1 - Real.exp (-A) ≠ 0 := by
    intro h
    have := exp_two_ne h3
    rw [exp_two_split, h, zero_mul] at this
    exact this rfl
  have e3 : Real.exp (-g / g0 - A + A) - Real.exp (-g / g0 - A) = Real.exp (-g / g0) * (1 - Real.exp (-A)) := by
    rw [sub_add_cancel, sub_eq_add_neg (-g / g0), Real.exp_add]; ring
  rw [e3, exp_two_split]
  have := Real.pi_ne_zero
  field_simp

/-- **C149 does not hold as stated.** For an accelerating field there are more particles than the momentum distribution has, up to twice as
many: the factor `A / (1 - exp (-2 A))` is the one for a distribution in the pitch, not in its absolute value. -/
theorem C149_refuted (EHat lnLambda Zeff p g g0 A : ℝ) (hE : -1 < EHat) (hL : 0 < lnLambda) (hZ : -1 < Zeff) (hp : p ≠ 0)
    (hg : g = Real.sqrt (1 + p ^ 2)) (hg0 : g0 = lnLambda * Real.sqrt (Zeff + 5)) (hA : A = (EHat + 1) / (Zeff + 1) * g) :
    electronMass * lightSpeed * (Real.exp (-g / g0) / g0) <
      2 * Real.pi * p ^ 2 * (∫ x in (-1 : ℝ)..1, MomDist.value (MomDist.mkAvalanche EHat lnLambda Zeff) p x) ∧
    2 * (1 - Real.exp (-A)) * (electronMass * lightSpeed * (Real.exp (-g / g0) / g0)) ≤
      2 * Real.pi * p ^ 2 * (∫ x in (-1 : ℝ)..1, MomDist.value (MomDist.mkAvalanche EHat lnLambda Zeff) p x) ∧
    2 * Real.pi * p ^ 2 * (∫ x in (-1 : ℝ)..1, MomDist.value (MomDist.mkAvalanche EHat lnLambda Zeff) p x) <
      2 * (electronMass * lightSpeed * (Real.exp (-g / g0) / g0)) := by
  have g1 : 0 < g := by rw [hg]; exact Real.sqrt_pos.2 (by positivity)
  have hg0p : 0 < g0 := by rw [hg0]; exact mul_pos hL (Real.sqrt_pos.2 (by linarith))
  have hAp : 0 < A := by rw [hA]; exact mul_pos (div_pos (by linarith) (by linarith)) g1
  rw [C149_number_partial EHat lnLambda Zeff p g g0 A hg hg0 hA hp hg0p.ne' hAp.ne']
  have hN : 0 < electronMass * lightSpeed * (Real.exp (-g / g0) / g0) := by
    refine mul_pos (mul_pos ?_ ?_) (div_pos (Real.exp_pos _) hg0p) <;> norm_num [electronMass, lightSpeed]
  generalize electronMass * lightSpeed * (Real.exp (-g / g0) / g0) = N at hN
  have q0 := Real.exp_pos (-A)
  have q1 : Real.exp (-A) < 1 := by
    have := Real.exp_lt_exp.2 (show -A < 0 by linarith)
    rwa [Real.exp_zero] at this
  generalize Real.exp (-A) = q at q0 q1
  have k : (0 : ℝ) < 1 + q := by linarith
  refine ⟨?_, ?_, ?_⟩
  · have : 1 < 2 / (1 + q) := by rw [lt_div_iff₀ k]; linarith
    nlinarith
  · have : 2 * (1 - q) ≤ 2 / (1 + q) := by rw [le_div_iff₀ k]; nlinarith
    nlinarith
  · have : 2 / (1 + q) < 2 := by rw [div_lt_iff₀ k]; linarith
    nlinarith

/-- **C149** At the pitches of one direction there are `1 / (1 + exp (-A))` of the particles. -/
theorem C149_forward_partial (EHat lnLambda Zeff p g g0 A : ℝ) (hg : g = Real.sqrt (1 + p ^ 2))
    (hg0 : g0 = lnLambda * Real.sqrt (Zeff + 5)) (hA : A = (EHat + 1) / (Zeff + 1) * g)
    (h1 : p ≠ 0) (h2 : g0 ≠ 0) (h3 : A ≠ 0) :
    2 * Real.pi * p ^ 2 * (∫ x in (0 : ℝ)..1, MomDist.value (MomDist.mkAvalanche EHat lnLambda Zeff) p x) =
      electronMass * lightSpeed * (Real.exp (-g / g0) / g0) * (1 / (1 + Real.exp (-A))) := by
  have a := C149_number_partial EHat lnLambda Zeff p g g0 A hg hg0 hA h1 h2 h3
  simp only [avalanche_value EHat lnLambda Zeff p g g0 A hg hg0 hA h1 h2 h3] at a ⊢
  rw [intervalIntegral.integral_const_mul, even_integral (fun x => Real.exp ((-g / g0 - A) + A * x)) (by fun_prop)] at a
  rw [intervalIntegral.integral_const_mul]
  have : ∫ x in (0 : ℝ)..1, Real.exp ((-g / g0 - A) + A * |x|) = ∫ x in (0 : ℝ)..1, Real.exp ((-g / g0 - A) + A * x) := by
    refine intervalIntegral.integral_congr fun x hx => ?_
    rw [Set.uIcc_of_le (by norm_num)] at hx
    simp only [abs_of_nonneg hx.1]
  rw [this]
  have e1 : 2 / (1 + Real.exp (-A)) = 2 * (1 / (1 + Real.exp (-A))) := by ring
  rw [e1] at a
  linear_combination a / 2

/-- **C149** The mean size of the pitch of the avalanche distribution is `1 / (1 - exp (-A)) - 1 / A`. -/
theorem C149_mean_pitch (EHat lnLambda Zeff p g g0 A : ℝ) (hg : g = Real.sqrt (1 + p ^ 2))
    (hg0 : g0 = lnLambda * Real.sqrt (Zeff + 5)) (hA : A = (EHat + 1) / (Zeff + 1) * g)
    (h1 : p ≠ 0) (h2 : g0 ≠ 0) (h3 : A ≠ 0) :
    (∫ x in (-1 : ℝ)..1, |x| * MomDist.value (MomDist.mkAvalanche EHat lnLambda Zeff) p x) =
      (1 / (1 - Real.exp (-A)) - 1 / A) * ∫ x in (-1 : ℝ)..1, MomDist.value (MomDist.mkAvalanche EHat lnLambda Zeff) p x := by
  simp only [avalanche_value EHat lnLambda Zeff p g g0 A hg hg0 hA h1 h2 h3]
  have e2 : 1 - Real.exp (-A) ≠ 0 := by
    intro h
    have := exp_two_ne h3
    rw [exp_two_split, h, zero_mul] at this
    exact this rfl
  generalize electronMass * lightSpeed * A / (2 * Real.pi * g0 * p ^ 2) * (1 / (1 - Real.exp (-2 * A))) = M
  have e : (∫ x in (-1 : ℝ)..1, |x| * (M * Real.exp (-g / g0 - A + A * |x|))) = M * (2 * ∫ x in (0 : ℝ)..1, x * Real.exp (-g / g0 - A + A * x)) := by
    rw [← even_integral (fun x => x * Real.exp ((-g / g0 - A) + A * x)) (by fun_prop), ← intervalIntegral.integral_const_mul]
    exact intervalIntegral.integral_congr fun x _ => by ring
  rw [e, intervalIntegral.integral_const_mul, even_integral (fun x => Real.exp ((-g / g0 - A) + A * x)) (by fun_prop), exp_integral h3, exp_moment h3,
    sub_add_cancel, sub_eq_add_neg (-g / g0), Real.exp_add]
  field_simp

/-- **C149** The number of particles of the exponential pitch distribution. -/
theorem C149_expPitch (C p : ℝ) (hC : C ≠ 0) : (∫ x in (-1 : ℝ)..1, MomDist.value (.expPitch C) p x) = 2 * ((Real.exp C - 1) / C) := by
  have := exp_integral hC 0
  simp only [zero_add, Real.exp_zero] at this
  rw [← this, ← even_integral (fun x => Real.exp (C * x)) (by fun_prop)]
  rfl

/-- **C149** No analytical distribution has a net current: as many particles move one way as the other. -/
theorem C149_no_current (m : MomDist) (p : ℝ) : (∫ x in (-1 : ℝ)..1, x * MomDist.value m p x) = 0 := by
  have h := intervalIntegral.integral_comp_neg (a := (-1 : ℝ)) (b := 1) (fun x => x * MomDist.value m p x)
  have e : ∀ x, MomDist.value m p (-x) = MomDist.value m p x := fun x => by rw [MomDist.value, C64_even, MomDist.value]
  simp only [e, neg_mul, neg_neg] at h
  rw [intervalIntegral.integral_neg] at h
  linarith

/-- Field, logarithm and charge for which `A = 2 γ`. -/
example (p : ℝ) (hp : p ≠ 0) : electronMass * lightSpeed * (Real.exp (-Real.sqrt (1 + p ^ 2) / (10 * Real.sqrt (1 + 5))) / (10 * Real.sqrt (1 + 5))) <
    2 * Real.pi * p ^ 2 * (∫ x in (-1 : ℝ)..1, MomDist.value (MomDist.mkAvalanche 3 10 1) p x) :=
  (C149_refuted 3 10 1 p _ _ _ (by norm_num) (by norm_num) (by norm_num) hp rfl rfl rfl).1

end

end Softlib
