import Verif.Dist.ProfileProps

/-!
The formulas of the analytical momentum distributions (claim C64), as documented at the heads of
AnalyticalAvalanche.cpp (lines 1-18) and ConnorHastieDistribution.cpp (lines 1-7).
-/

namespace Softlib

open Softlib.Dist

noncomputable section

/-- **C64** The avalanche distribution is the documented formula, wherever no denominator vanishes. -/
theorem C64_avalanche_formula (EHat lnLambda Zeff p xi g g0 A : ℝ) (hg : g = Real.sqrt (1 + p ^ 2))
    (hg0 : g0 = lnLambda * Real.sqrt (Zeff + 5)) (hA : A = (EHat + 1) / (Zeff + 1) * g)
    (h1 : p ≠ 0) (h2 : g0 ≠ 0) (h3 : A ≠ 0) :
    (MomDist.mkAvalanche EHat lnLambda Zeff).eval p xi =
      some (electronMass * lightSpeed * A / (2 * Real.pi * g0 * p ^ 2) * Real.exp (-g / g0 - A * (1 - |xi|)) *
        (1 / (1 - Real.exp (-2 * A)))) := by
  have e1 : Real.sqrt (p * p + 1) = g := by rw [hg]; congr 1; ring
  have hx : 1 - Real.exp (-2 * A) ≠ 0 := by
    intro h
    have : Real.exp (-2 * A) = 1 := by linarith
    rw [Real.exp_eq_one_iff] at this
    exact h3 (by linarith)
  have hd : 2 * Real.pi * g0 * (p * p) ≠ 0 := by
    have := Real.pi_ne_zero
    positivity
  show avalancheEval ((EHat + 1) / (Zeff + 1)) (lnLambda * Real.sqrt (Zeff + 5)) p xi = _
  rw [← hg0]
  unfold avalancheEval
  simp only [e1, ← hA, fdiv]
  rw [if_neg hd, if_neg h2]
  simp only [Option.bind_eq_bind, Option.bind_some, Option.pure_def]
  rw [if_neg hx, Option.bind_some]
  congr 1
  rw [pow_two]
  ring

/-- **C64** The Connor-Hastie distribution is the documented formula in the parallel momentum `p |xi|` and the
square `p² (1 - xi²)` of the perpendicular one, below the cut-off and when there is none. -/
theorem C64_connorHastie_formula (EHat Zeff pMax deltaP p xi ppar pperp2 : ℝ) (hpar : ppar = p * |xi|)
    (hperp : pperp2 = p ^ 2 * (1 - xi ^ 2)) (h : ppar ≠ 0) :
    (deltaP = 0 ∨ p < pMax → (MomDist.mkConnorHastie EHat Zeff pMax deltaP).eval p xi =
      some (1 / ppar * Real.exp (-((EHat + 1) / (2 * (Zeff + 1))) * pperp2 / ppar))) ∧
    (deltaP ≠ 0 → pMax ≤ p → (MomDist.mkConnorHastie EHat Zeff pMax deltaP).eval p xi =
      some (1 / ppar * Real.exp (-((EHat + 1) / (2 * (Zeff + 1))) * pperp2 / ppar) *
        Real.exp (-((p - pMax) / deltaP) ^ 2))) := by
  have hp : p ≠ 0 := by rintro rfl; rw [zero_mul] at hpar; exact h hpar
  have hxi : |xi| ≠ 0 := by intro h0; rw [h0, mul_zero] at hpar; exact h hpar
  have e : -((EHat + 1) / (2 * (Zeff + 1))) * p * (1 - xi * xi) / |xi| =
      -((EHat + 1) / (2 * (Zeff + 1))) * pperp2 / ppar := by
    rw [hperp, hpar, div_eq_div_iff hxi (mul_ne_zero hp hxi)]
    ring
  show (deltaP = 0 ∨ p < pMax → connorHastieEval pMax deltaP ((EHat + 1) / (2 * (Zeff + 1))) p xi = _) ∧
    (deltaP ≠ 0 → pMax ≤ p → connorHastieEval pMax deltaP ((EHat + 1) / (2 * (Zeff + 1))) p xi = _)
  refine ⟨fun hc => ?_, fun hd hm => ?_⟩
  · unfold connorHastieEval
    rw [if_pos hc]
    simp only [fdiv]
    rw [if_neg (mul_ne_zero hp hxi), if_neg hxi]
    simp only [Option.bind_eq_bind, Option.bind_some, Option.pure_def]
    rw [e, hpar]
  · unfold connorHastieEval
    rw [if_neg (by rintro (hc | hc); exacts [hd hc, absurd hc (not_lt.2 hm)])]
    simp only [fdiv]
    rw [if_neg hd, if_neg (mul_ne_zero hp hxi), if_neg hxi]
    simp only [Option.bind_eq_bind, Option.bind_some, Option.pure_def]
    rw [e, ← hpar, mul_assoc, ← Real.exp_add]
    congr 3
    ring

/-- At unit pitch all momentum is parallel: the Connor-Hastie distribution is one over the momentum. -/
example : (MomDist.mkConnorHastie 3 1 0 0).eval 2 1 = some (1 / 2) := by
  rw [(C64_connorHastie_formula 3 1 0 0 2 1 2 0 (by norm_num) (by norm_num) (by norm_num)).1 (.inl rfl)]
  norm_num

example : ∃ v, (MomDist.mkAvalanche 1 1 (-1 / 2)).eval 1 0 = some v :=
  ⟨_, C64_avalanche_formula 1 1 (-1 / 2) 1 0 _ _ _ rfl rfl rfl one_ne_zero
    (by have : (0 : ℝ) < Real.sqrt (-1 / 2 + 5) := Real.sqrt_pos.2 (by norm_num)
        simpa using this.ne')
    (by have : (0 : ℝ) < Real.sqrt (1 + 1 ^ 2) := Real.sqrt_pos.2 (by norm_num)
        exact mul_ne_zero (by norm_num) this.ne')⟩

end

end Softlib
