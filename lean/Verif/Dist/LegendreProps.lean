/-
C61: the Legendre modes of the CODE distribution.
-/
import Verif.Dist.CodeModel
import Mathlib.Tactic.Ring
import Mathlib.Tactic.Linarith
import Mathlib.Tactic.LinearCombination
import Mathlib.Tactic.NormNum
import Mathlib.Tactic.FieldSimp
import Mathlib.Data.Nat.Choose.Central
import Mathlib.RingTheory.PowerSeries.Derivative
import Mathlib.Analysis.Complex.Basic

namespace Softlib

open Dist

/-- The Legendre polynomials, by Bonnet's recursion. -/
def legP {K : Type} [Field K] (x : K) : Nat → K
  | 0 => 1
  | 1 => x
  | n + 2 => ((2 * (n : K) + 3) * x * legP x (n + 1) - ((n : K) + 1) * legP x n) / ((n : K) + 2)

section values

variable {K : Type} [Field K] [CharZero K]

theorem cast_ne (n : Nat) : ((n : K) + 2) ≠ 0 := by
  have : ((n + 2 : Nat) : K) ≠ 0 := Nat.cast_ne_zero.mpr (by omega)
  push_cast at this
  exact this

/-- **C61** Bonnet's recursion. -/
theorem C61_bonnet (x : K) (n : Nat) :
    ((n : K) + 2) * legP x (n + 2) = (2 * (n : K) + 3) * x * legP x (n + 1) - ((n : K) + 1) * legP x n := by
  simp only [legP]
  field_simp [cast_ne n]

theorem legLoop_spec (x : K) : ∀ (k i : Nat) (a : List K), a.length = i + 2 + k →
    (∀ j, j < i + 2 → a[j]? = some (legP x j)) →
    ∃ b, legLoop x k i a = some b ∧ b.length = a.length ∧ ∀ j, j < a.length → b[j]? = some (legP x j) := by
  intro k
  induction k with
  | zero =>
    intro i a hl h
    exact ⟨a, rfl, rfl, fun j hj => h j (by omega)⟩
  | succ k ih =>
    intro i a hl h
    simp only [legLoop, h (i + 1) (by omega), h i (by omega)]
    have hlt : i + 2 < a.length := by omega
    simp only [setAt, if_pos hlt]
    generalize hv : (2 * ((i : K) + 1) + 1) / ((i : K) + 1 + 1) * x * legP x (i + 1) - ((i : K) + 1) / ((i : K) + 1 + 1) * legP x i = v
    have hval : v = legP x (i + 2) := by
      rw [← hv]
      have h2 := cast_ne (K := K) i
      have h3 : (i : K) + 1 + 1 = (i : K) + 2 := by ring
      rw [h3]
      simp only [legP]
      field_simp
      ring
    obtain ⟨b, e, hb, hs⟩ := ih (i + 1) (a.set (i + 2) v) (by simp; omega) (by
      intro j hj
      by_cases hj2 : j = i + 2
      · subst hj2
        rw [List.getElem?_set_self hlt, hval]
      · rw [List.getElem?_set_ne (by omega)]
        exact h j (by omega))
    refine ⟨b, e, by rw [hb]; simp, fun j hj => hs j (by simpa using hj)⟩

/-- **C61** With at least two modes the array is filled with the Legendre polynomials, whatever it
contained, and nothing outside it is written. -/
theorem C61_values_partial (leg : List K) (x : K) (nleg : Nat) (hlen : leg.length = nleg) (h2 : 2 ≤ nleg) :
    ∃ b, computeLegendre leg x nleg = some b ∧ b.length = nleg ∧ ∀ l, l < nleg → b[l]? = some (legP x l) := by
  have h0 : 0 < leg.length := by omega
  have h1 : 1 < (leg.set 0 1).length := by simp; omega
  obtain ⟨b, e, hb, hs⟩ := legLoop_spec x (nleg - 2) 0 ((leg.set 0 1).set 1 x) (by simp; omega) (by
    intro j hj
    rcases j with _ | _ | j
    · rw [List.getElem?_set_ne (by omega), List.getElem?_set_self h0]; rfl
    · rw [List.getElem?_set_self h1]; rfl
    · omega)
  refine ⟨b, ?_, by rw [hb]; simpa using hlen, fun l hl => hs l (by simp; omega)⟩
  simp only [computeLegendre, setAt, if_pos h0]
  rw [if_pos (by omega), if_pos h1]
  exact e

/-- The same as an equation. -/
theorem computeLegendre_eq (leg : List K) (x : K) (nleg : Nat) (hlen : leg.length = nleg) (h2 : 2 ≤ nleg) :
    computeLegendre leg x nleg = some ((List.range nleg).map (legP x)) := by
  obtain ⟨b, e, hb, hs⟩ := C61_values_partial leg x nleg hlen h2
  rw [e]
  congr 1
  apply List.ext_getElem?
  intro l
  by_cases hl : l < nleg
  · rw [hs l hl, List.getElem?_map, List.getElem?_range hl]; rfl
  · rw [List.getElem?_eq_none (by omega), List.getElem?_eq_none (by simp; omega)]

example : computeLegendre [0, 0, 0, 0] (1 / 2 : ℚ) 4 = some [1, 1 / 2, -1 / 8, -7 / 16] := by
  simp [computeLegendre, setAt, legLoop]
  norm_num

omit [CharZero K] in
/-- **C61** (refuted) With no mode the first entry is written although the array is empty, and with
one mode the second entry is written although the array has one. -/
theorem C61_refuted_few (leg : List K) (x : K) (nleg : Nat) (hlen : leg.length = nleg) (h : nleg < 2) :
    computeLegendre leg x nleg = none := by
  rcases leg with _ | ⟨a, _ | ⟨b, l⟩⟩
  · simp [computeLegendre, setAt]
  · subst hlen
    simp [computeLegendre, setAt]
  · simp at hlen; omega

/-- **C61** All values are one at `x = 1`. -/
theorem C61_one (n : Nat) : legP (1 : K) n = 1 := by
  induction n using Nat.strong_induction_on with
  | _ n ih =>
    match n with
    | 0 => rfl
    | 1 => rfl
    | n + 2 =>
      simp only [legP, ih (n + 1) (by omega), ih n (by omega)]
      have := cast_ne (K := K) n
      field_simp
      ring

omit [CharZero K] in
/-- **C61** Parity. -/
theorem C61_parity (x : K) (n : Nat) : legP (-x) n = (-1) ^ n * legP x n := by
  induction n using Nat.strong_induction_on with
  | _ n ih =>
    match n with
    | 0 => simp [legP]
    | 1 => simp [legP]
    | n + 2 =>
      simp only [legP, ih (n + 1) (by omega), ih n (by omega), pow_succ]
      ring

end values

/-! ### The bound -/

/-- Central binomial coefficients over powers of four: the coefficients of (1-t)^(-1/2). -/
noncomputable def cbin (k : Nat) : ℂ := (Nat.centralBinom k : ℂ) / 4 ^ k

theorem cbin_rec (k : Nat) : 2 * ((k : ℂ) + 1) * cbin (k + 1) = (2 * (k : ℂ) + 1) * cbin k := by
  have h := Nat.succ_mul_centralBinom_succ k
  have hc : ((k : ℂ) + 1) * (Nat.centralBinom (k + 1) : ℂ) = 2 * (2 * (k : ℂ) + 1) * (Nat.centralBinom k : ℂ) := by
    exact_mod_cast h
  simp only [cbin, pow_succ]
  have h4 : (4 : ℂ) ^ k ≠ 0 := pow_ne_zero _ (by norm_num)
  field_simp
  linear_combination 2 * hc

/-- The series of (1-zt)^(-1/2). -/
noncomputable def rootSeries (z : ℂ) : PowerSeries ℂ := PowerSeries.mk fun k => cbin k * z ^ k

open PowerSeries in
theorem rootSeries_deriv (z : ℂ) :
    2 * (1 - C z * X) * derivative ℂ (rootSeries z) = C z * rootSeries z := by
  have e : (2 : PowerSeries ℂ) = C (2 : ℂ) := (map_ofNat C 2).symm
  have : 2 * (1 - C z * X) * derivative ℂ (rootSeries z)
      = C (2 : ℂ) * derivative ℂ (rootSeries z) - C (2 * z) * (X * derivative ℂ (rootSeries z)) := by
    rw [e, map_mul]; ring
  rw [this]
  ext n
  rw [map_sub, coeff_C_mul, coeff_C_mul, coeff_C_mul]
  rcases n with _ | n
  · rw [coeff_zero_X_mul, coeff_derivative, rootSeries, coeff_mk, coeff_mk]
    have := cbin_rec 0
    push_cast at *
    simp only [zero_add, pow_one, pow_zero, mul_one, mul_zero, sub_zero, one_mul] at *
    linear_combination z * this
  · rw [coeff_succ_X_mul, coeff_derivative, coeff_derivative, rootSeries, coeff_mk, coeff_mk]
    have := cbin_rec (n + 1)
    push_cast at *
    linear_combination (z ^ (n + 2)) * this

open PowerSeries in
theorem product_deriv (z w x : ℂ) (hzw : z * w = 1) (hx : z + w = 2 * x) :
    derivative ℂ (rootSeries z * rootSeries w) - C (2 * x) * (X * derivative ℂ (rootSeries z * rootSeries w))
      + X * (X * derivative ℂ (rootSeries z * rootSeries w))
      = C x * (rootSeries z * rootSeries w) - X * (rootSeries z * rootSeries w) := by
  have hz := rootSeries_deriv z
  have hw := rootSeries_deriv w
  have hd : derivative ℂ (rootSeries z * rootSeries w)
      = rootSeries z * derivative ℂ (rootSeries w) + rootSeries w * derivative ℂ (rootSeries z) := by
    rw [Derivation.leibniz]; simp only [smul_eq_mul]
  generalize hF : derivative ℂ (rootSeries z * rootSeries w) = F at *
  generalize derivative ℂ (rootSeries z) = A' at *
  generalize derivative ℂ (rootSeries w) = B' at *
  generalize rootSeries z = A at *
  generalize rootSeries w = B at *
  have h1 : (C z : PowerSeries ℂ) * C w = 1 := by rw [← map_mul, hzw, map_one]
  have h2 : (C z : PowerSeries ℂ) + C w = C (2 * x) := by rw [← map_add, hx]
  have h3 : (C (2 * x) : PowerSeries ℂ) = 2 * C x := by rw [map_mul, map_ofNat]
  generalize (C z : PowerSeries ℂ) = a at *
  generalize (C w : PowerSeries ℂ) = b at *
  rw [h3] at h2 ⊢
  generalize (C x : PowerSeries ℂ) = c at *
  generalize (X : PowerSeries ℂ) = t at *
  have h2F : (2 : PowerSeries ℂ) * (F - 2 * c * (t * F) + t * (t * F)) = 2 * (c * (A * B) - t * (A * B)) := by
    linear_combination (2 * (1 - a * t) * (1 - b * t)) * hd + (1 - b * t) * B * hz + (1 - a * t) * A * hw
      + (2 * t * F) * h2 + (- 2 * t * t * F - 2 * t * A * B) * h1 + A * B * h2
  have : (2 : PowerSeries ℂ) ≠ 0 := by
    intro h
    have := congrArg (PowerSeries.constantCoeff (R := ℂ)) h
    rw [map_ofNat, map_zero] at this
    norm_num at this
  exact mul_left_cancel₀ this h2F

/-- The coefficients of the product. -/
noncomputable def prodCoeff (z w : ℂ) (n : Nat) : ℂ := PowerSeries.coeff n (rootSeries z * rootSeries w)

open PowerSeries in
theorem prodCoeff_rec (z w x : ℂ) (hzw : z * w = 1) (hx : z + w = 2 * x) (n : Nat) :
    ((n : ℂ) + 2) * prodCoeff z w (n + 2) = (2 * (n : ℂ) + 3) * x * prodCoeff z w (n + 1) - ((n : ℂ) + 1) * prodCoeff z w n := by
  have h := congrArg (coeff (R := ℂ) (n + 1)) (product_deriv z w x hzw hx)
  simp only [map_add, map_sub, coeff_C_mul, coeff_succ_X_mul, coeff_derivative] at h
  unfold prodCoeff
  rcases n with _ | n
  · rw [coeff_zero_X_mul] at h
    push_cast at *
    linear_combination h
  · rw [coeff_succ_X_mul, coeff_derivative] at h
    push_cast at *
    linear_combination h

theorem prodCoeff_eq (z w x : ℂ) (hzw : z * w = 1) (hx : z + w = 2 * x) (n : Nat) : prodCoeff z w n = legP x n := by
  induction n using Nat.strong_induction_on with
  | _ n ih =>
    match n with
    | 0 => simp [prodCoeff, legP, rootSeries, PowerSeries.coeff_mul, cbin]
    | 1 =>
      have : Finset.antidiagonal 1 = {((0 : ℕ), (1 : ℕ)), (1, 0)} := rfl
      simp only [prodCoeff, legP, rootSeries, PowerSeries.coeff_mul, cbin, this, PowerSeries.coeff_mk]
      rw [Finset.sum_pair (by simp)]
      simp [Nat.centralBinom]
      linear_combination hx / 2
    | n + 2 =>
      have h := prodCoeff_rec z w x hzw hx n
      rw [ih (n + 1) (by omega), ih n (by omega), ← C61_bonnet] at h
      exact mul_left_cancel₀ (cast_ne n) h

theorem cbin_norm (k : Nat) : ‖cbin k‖ = (Nat.centralBinom k : ℝ) / 4 ^ k := by
  simp [cbin]

theorem prodCoeff_le (z w : ℂ) (hz : ‖z‖ ≤ 1) (hw : ‖w‖ ≤ 1) (n : Nat) : ‖prodCoeff z w n‖ ≤ 1 := by
  have h1 : prodCoeff 1 1 n = 1 := by
    rw [prodCoeff_eq 1 1 1 (by ring) (by ring), C61_one]
  have h2 : (∑ q ∈ Finset.antidiagonal n, ‖cbin q.1‖ * ‖cbin q.2‖ : ℝ) = 1 := by
    have h3 : ((∑ q ∈ Finset.antidiagonal n, ‖cbin q.1‖ * ‖cbin q.2‖ : ℝ) : ℂ) = prodCoeff 1 1 n := by
      simp only [prodCoeff, rootSeries, PowerSeries.coeff_mul, PowerSeries.coeff_mk, one_pow, mul_one, cbin_norm]
      push_cast
      rfl
    rw [h1] at h3
    exact_mod_cast h3
  rw [← h2]
  simp only [prodCoeff, rootSeries, PowerSeries.coeff_mul, PowerSeries.coeff_mk]
  refine (norm_sum_le _ _).trans (Finset.sum_le_sum fun q _ => ?_)
  rw [norm_mul, norm_mul, norm_mul, norm_pow, norm_pow]
  have hz' : ‖z‖ ^ q.1 ≤ 1 := pow_le_one₀ (norm_nonneg _) hz
  have hw' : ‖w‖ ^ q.2 ≤ 1 := pow_le_one₀ (norm_nonneg _) hw
  have ha := norm_nonneg (cbin q.1)
  have hb := norm_nonneg (cbin q.2)
  have := mul_le_mul (mul_le_of_le_one_right ha hz') (mul_le_of_le_one_right hb hw')
    (mul_nonneg hb (pow_nonneg (norm_nonneg _) _)) ha
  exact this

theorem legP_ofReal (x : ℝ) (n : Nat) : legP (x : ℂ) n = ((legP x n : ℝ) : ℂ) := by
  induction n using Nat.strong_induction_on with
  | _ n ih =>
    match n with
    | 0 => simp [legP]
    | 1 => simp [legP]
    | n + 2 =>
      simp only [legP, ih (n + 1) (by omega), ih n (by omega)]
      push_cast
      rfl

/-- **C61** All values are at most one in size for `x` in [-1, 1]. -/
theorem C61_bounded (x : ℝ) (h1 : -1 ≤ x) (h2 : x ≤ 1) (n : Nat) : |legP x n| ≤ 1 := by
  have hs : 0 ≤ 1 - x ^ 2 := by nlinarith
  have hsq : Real.sqrt (1 - x ^ 2) ^ 2 = 1 - x ^ 2 := Real.sq_sqrt hs
  set s := Real.sqrt (1 - x ^ 2) with hsdef
  have hzw : (⟨x, s⟩ : ℂ) * ⟨x, -s⟩ = 1 := by
    apply Complex.ext
    · simp; nlinarith
    · simp; ring
  have hsum : (⟨x, s⟩ : ℂ) + ⟨x, -s⟩ = 2 * (x : ℂ) := by
    apply Complex.ext
    · simp; ring
    · simp
  have hn : ∀ t : ℝ, t ^ 2 = 1 - x ^ 2 → ‖(⟨x, t⟩ : ℂ)‖ ≤ 1 := by
    intro t ht
    have : ‖(⟨x, t⟩ : ℂ)‖ ^ 2 = 1 := by
      rw [← Complex.normSq_eq_norm_sq, Complex.normSq_mk]
      nlinarith
    nlinarith [norm_nonneg (⟨x, t⟩ : ℂ)]
  have hle := prodCoeff_le ⟨x, s⟩ ⟨x, -s⟩ (hn s hsq) (hn (-s) (by rw [neg_sq]; exact hsq)) n
  rw [prodCoeff_eq _ _ _ hzw hsum, legP_ofReal, Complex.norm_real, Real.norm_eq_abs] at hle
  exact hle

end Softlib
