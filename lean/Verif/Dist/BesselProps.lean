/-
The Bessel function J0 on the interval used by the Bessel radial profile: it decreases from one and
stays positive up to the constant that the code takes for its first zero.
-/
import Verif.Dist.ProfileModel
import Mathlib.Analysis.SpecificLimits.Normed
import Mathlib.Analysis.SpecialFunctions.Exponential
import Mathlib.Tactic.Linarith
import Mathlib.Tactic.Positivity
import Mathlib.Tactic.FieldSimp
import Mathlib.Tactic.NormNum

namespace Softlib

open Dist Finset Filter Topology

noncomputable section

/-- The term of the series in `y = x² / 4`. -/
def bTerm (y : ℝ) (k : ℕ) : ℝ := y ^ k / (k.factorial : ℝ) ^ 2

theorem bTerm_zero (y : ℝ) : bTerm y 0 = 1 := by simp [bTerm]

theorem bTerm_succ (y : ℝ) (k : ℕ) : bTerm y (k + 1) = bTerm y k * (y / ((k : ℝ) + 1) ^ 2) := by
  simp only [bTerm, Nat.factorial_succ, Nat.cast_mul, Nat.cast_add, Nat.cast_one]
  have h : (k.factorial : ℝ) ≠ 0 := by exact_mod_cast k.factorial_ne_zero
  have h2 : (k : ℝ) + 1 ≠ 0 := by positivity
  field_simp
  ring

theorem bTerm_nonneg {y : ℝ} (hy : 0 ≤ y) (k : ℕ) : 0 ≤ bTerm y k := by
  simp only [bTerm]
  positivity

theorem bTerm_summable {y : ℝ} (hy : 0 ≤ y) : Summable (bTerm y) := by
  refine Summable.of_nonneg_of_le (bTerm_nonneg hy) (fun k => ?_) (Real.summable_pow_div_factorial y)
  simp only [bTerm]
  have h1 : (1 : ℝ) ≤ k.factorial := by exact_mod_cast Nat.one_le_iff_ne_zero.mpr k.factorial_ne_zero
  refine div_le_div_of_nonneg_left (by positivity) (by positivity) ?_
  nlinarith

theorem besselJ0_eq (x : ℝ) : besselJ0 x = ∑' k : ℕ, (-1) ^ k * bTerm (x ^ 2 / 4) k := by
  simp only [besselJ0, bTerm]
  congr 1
  funext k
  rw [pow_mul]
  ring_nf

/-- The sum without its first term. -/
theorem besselJ0_tail (x : ℝ) : besselJ0 x = 1 - ∑' k : ℕ, (-1) ^ k * bTerm (x ^ 2 / 4) (k + 1) := by
  have hs : Summable (fun k : ℕ => (-1) ^ k * bTerm (x ^ 2 / 4) k) := (bTerm_summable (by positivity)).alternating
  rw [besselJ0_eq, hs.tsum_eq_zero_add]
  simp only [pow_zero, one_mul, bTerm_zero]
  rw [sub_eq_add_neg, ← tsum_neg]
  congr 1
  congr 1
  funext k
  rw [pow_succ]
  ring

theorem besselJ0_zero : besselJ0 0 = 1 := by
  rw [besselJ0_tail]
  have : ∀ k : ℕ, (-1 : ℝ) ^ k * bTerm ((0 : ℝ) ^ 2 / 4) (k + 1) = 0 := by
    intro k
    simp [bTerm]
  simp only [this, tsum_zero, sub_zero]

/-- The difference of corresponding terms at two places. -/
theorem bDiff_antitone {y z : ℝ} (hy : 0 ≤ y) (hyz : y ≤ z) (hz : z ≤ 3 / 2) :
    Antitone (fun k : ℕ => bTerm z (k + 1) - bTerm y (k + 1)) := by
  refine antitone_nat_of_succ_le (fun k => ?_)
  have hz0 : 0 ≤ z := le_trans hy hyz
  have key : z ^ (k + 2) - y ^ (k + 2) ≤ 2 * z * (z ^ (k + 1) - y ^ (k + 1)) := by
    have h1 : y ^ k ≤ z ^ k := pow_le_pow_left₀ hy hyz k
    have h2 : 0 ≤ y ^ k := by positivity
    have h3 : 0 ≤ z - y := by linarith
    have e : 2 * z * (z ^ (k + 1) - y ^ (k + 1)) - (z ^ (k + 2) - y ^ (k + 2)) =
        z ^ 2 * z ^ k - 2 * z * y * y ^ k + y ^ 2 * y ^ k := by ring
    have h4 : z ^ 2 * y ^ k ≤ z ^ 2 * z ^ k := mul_le_mul_of_nonneg_left h1 (by positivity)
    nlinarith [mul_nonneg (mul_nonneg h3 h3) h2]
  have hd : 0 ≤ z ^ (k + 1) - y ^ (k + 1) := sub_nonneg.mpr (pow_le_pow_left₀ hy hyz _)
  have hf : (0 : ℝ) < ((k + 1).factorial : ℝ) ^ 2 := by positivity
  have e1 : bTerm z (k + 1 + 1) - bTerm y (k + 1 + 1) =
      (z ^ (k + 2) - y ^ (k + 2)) / (((k : ℝ) + 2) ^ 2 * ((k + 1).factorial : ℝ) ^ 2) := by
    simp only [bTerm, Nat.factorial_succ (k + 1), Nat.cast_mul, Nat.cast_add, Nat.cast_one]
    rw [← sub_div]
    congr 1
    ring
  have e2 : bTerm z (k + 1) - bTerm y (k + 1) = (z ^ (k + 1) - y ^ (k + 1)) / ((k + 1).factorial : ℝ) ^ 2 := by
    simp only [bTerm]
    rw [← sub_div]
  rw [e1, e2, div_le_div_iff₀ (by positivity) hf]
  have hk : (4 : ℝ) ≤ ((k : ℝ) + 2) ^ 2 := by nlinarith [(Nat.cast_nonneg k : (0 : ℝ) ≤ k)]
  have h5 : z ^ (k + 2) - y ^ (k + 2) ≤ (z ^ (k + 1) - y ^ (k + 1)) * ((k : ℝ) + 2) ^ 2 := by
    calc z ^ (k + 2) - y ^ (k + 2) ≤ 2 * z * (z ^ (k + 1) - y ^ (k + 1)) := key
      _ ≤ 4 * (z ^ (k + 1) - y ^ (k + 1)) := mul_le_mul_of_nonneg_right (by linarith) hd
      _ ≤ (z ^ (k + 1) - y ^ (k + 1)) * ((k : ℝ) + 2) ^ 2 := by
        rw [mul_comm]
        exact mul_le_mul_of_nonneg_left hk hd
  calc (z ^ (k + 2) - y ^ (k + 2)) * ((k + 1).factorial : ℝ) ^ 2
      ≤ (z ^ (k + 1) - y ^ (k + 1)) * ((k : ℝ) + 2) ^ 2 * ((k + 1).factorial : ℝ) ^ 2 :=
        mul_le_mul_of_nonneg_right h5 (le_of_lt hf)
    _ = _ := by ring

/-- J0 decreases strictly while `x² / 4 ≤ 3 / 2`. -/
theorem besselJ0_strictAnti {x w : ℝ} (hx : 0 ≤ x) (hxw : x < w) (hw : w ^ 2 / 4 ≤ 3 / 2) : besselJ0 w < besselJ0 x := by
  have hy : 0 ≤ x ^ 2 / 4 := by positivity
  have hyz : x ^ 2 / 4 < w ^ 2 / 4 := by nlinarith
  have hz : 0 ≤ w ^ 2 / 4 := by positivity
  rw [besselJ0_tail x, besselJ0_tail w]
  generalize x ^ 2 / 4 = y at *
  generalize w ^ 2 / 4 = z at *
  have s1 : Summable (fun k : ℕ => bTerm y (k + 1)) := (summable_nat_add_iff 1).mpr (bTerm_summable hy)
  have s2 : Summable (fun k : ℕ => bTerm z (k + 1)) := (summable_nat_add_iff 1).mpr (bTerm_summable hz)
  have s3 : Summable (fun k : ℕ => bTerm z (k + 1) - bTerm y (k + 1)) := s2.sub s1
  have h := (bDiff_antitone hy (le_of_lt hyz) hw).alternating_series_le_tendsto s3.tendsto_alternating_series_tsum 1
  have e : ∑' k : ℕ, (-1) ^ k * (bTerm z (k + 1) - bTerm y (k + 1)) =
      ∑' k : ℕ, (-1) ^ k * bTerm z (k + 1) - ∑' k : ℕ, (-1) ^ k * bTerm y (k + 1) := by
    rw [← s2.alternating.tsum_sub s1.alternating]
    congr 1
    funext k
    ring
  rw [e] at h
  generalize ∑' k : ℕ, (-1) ^ k * bTerm z (k + 1) = Z at h ⊢
  generalize ∑' k : ℕ, (-1) ^ k * bTerm y (k + 1) = Y at h ⊢
  simp only [mul_one, sum_range_succ, sum_range_zero, bTerm, Nat.factorial] at h
  norm_num at h
  nlinarith

theorem bTerm_antitone {z : ℝ} (hz0 : 0 ≤ z) (hz : z ≤ 3 / 2) : Antitone (fun k : ℕ => bTerm z (k + 1)) := by
  refine antitone_nat_of_succ_le (fun k => ?_)
  rw [bTerm_succ z (k + 1)]
  have : z / (((k + 1 : ℕ) : ℝ) + 1) ^ 2 ≤ 1 := by
    rw [div_le_one (by positivity)]
    push_cast
    nlinarith [(Nat.cast_nonneg k : (0 : ℝ) ≤ k)]
  exact mul_le_of_le_one_right (bTerm_nonneg hz0 _) this

/-- At the constant of the code J0 is still positive. -/
theorem besselJ0_end : 0 < besselJ0 j0Zero := by
  rw [besselJ0_tail]
  have hz0 : (0 : ℝ) ≤ j0Zero ^ 2 / 4 := by positivity
  have hz : j0Zero ^ 2 / 4 ≤ 3 / 2 := by norm_num [j0Zero]
  have s2 : Summable (fun k : ℕ => bTerm (j0Zero ^ 2 / 4) (k + 1)) := (summable_nat_add_iff 1).mpr (bTerm_summable hz0)
  have h := (bTerm_antitone hz0 hz).tendsto_le_alternating_series s2.tendsto_alternating_series_tsum 6
  refine sub_pos.mpr (lt_of_le_of_lt h ?_)
  simp only [sum_range_succ, sum_range_zero, bTerm, Nat.factorial, j0Zero]
  norm_num

theorem j0Zero_pos : 0 < j0Zero := by norm_num [j0Zero]

theorem j0Zero_bound {x : ℝ} (h0 : 0 ≤ x) (h : x ≤ j0Zero) : x ^ 2 / 4 ≤ 3 / 2 := by
  have : x ^ 2 ≤ j0Zero ^ 2 := pow_le_pow_left₀ h0 h 2
  have h2 : j0Zero ^ 2 ≤ 6 := by norm_num [j0Zero]
  linarith

/-- On the interval used by the profile, J0 is positive and at most one. -/
theorem besselJ0_range {x : ℝ} (h0 : 0 ≤ x) (h : x ≤ j0Zero) : 0 < besselJ0 x ∧ besselJ0 x ≤ 1 := by
  constructor
  · rcases h.lt_or_eq with h | h
    · exact lt_trans besselJ0_end (besselJ0_strictAnti h0 h (j0Zero_bound (le_of_lt j0Zero_pos) le_rfl))
    · rw [h]; exact besselJ0_end
  · rcases h0.lt_or_eq with h0' | h0'
    · have := besselJ0_strictAnti le_rfl h0' (j0Zero_bound h0 h)
      rw [besselJ0_zero] at this
      exact le_of_lt this
    · rw [← h0', besselJ0_zero]

end

end Softlib
