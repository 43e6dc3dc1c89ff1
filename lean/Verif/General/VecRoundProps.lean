/-
Property C32 with rounded arithmetic.
-/
import Verif.General.VecRoundModel
import Verif.General.RoundProps
import Verif.General.VectorProps
import Verif.Integration.PeakedRoundProps
import Mathlib.Algebra.BigOperators.Intervals
import Mathlib.Algebra.Order.BigOperators.Group.Finset

namespace Softlib

open Softlib.General

/-- **C32** Without rounding these are the values of the memory model. -/
theorem C32_rounded_exact (n r a b : ℕ) (s : ℚ) (m : Mem ℚ) (ha : a ≠ r) (hb : b ≠ r) :
    (∀ i, i < n → vadd n r a b m r i = addRV exactRnd (m a) (m b) i) ∧
    (∀ i, i < n → vsub n r a b m r i = subRV exactRnd (m a) (m b) i) ∧
    (∀ i, i < n → vmulScalar n r a (.tmp s) m r i = mulRV exactRnd (m a) s i) ∧
    (∀ i, i < n → vdivScalar n r a (.tmp s) m r i = divRV exactRnd (m a) s i) ∧
    vdot n a b m = dotRV exactRnd n (m a) (m b) ∧
    (∃ m', vcross 3 r a b m = some m' ∧ ∀ i, i < 3 → m' r i = crossRV exactRnd (m a) (m b) i) := by
  have hs : ∀ i, (SRef.tmp s : SRef ℚ) ≠ .elem r i := fun i h => by cases h
  obtain ⟨h1, h2⟩ := C32_add_sub n r a b hb m
  obtain ⟨-, -, -, h3, h4⟩ := C32_scalar_ops n r a (.tmp s) hs m
  obtain ⟨m', h5, h6, -⟩ := (C32_cross 3 r a b ha hb m).2 rfl
  refine ⟨h1.1, h2.1, h3.1, ?_, rfl, m', h5, ?_⟩
  · intro i hi
    rw [h4.1 i hi]
    show m a i / s = m a i * (1 / s)
    rw [mul_one_div]
  · intro i hi
    rw [h6 i hi]
    have h3 : i = 0 ∨ i = 1 ∨ i = 2 := by omega
    rcases h3 with rfl | rfl | rfl <;> rfl

/-- **C32** Division with rounding: the relative error is at most two roundings. -/
theorem C32_rounded_div {u : ℚ} (R : Rnd u) (a : ℕ → ℚ) (s : ℚ) (i : ℕ) :
    |divRV R a s i - a i / s| ≤ ((1 + u) ^ 2 - 1) * |a i / s| := by
  have hu := R.u_nonneg
  have h1 := R.rel (1 / s)
  have h2 := R.rel (a i * R.fl (1 / s))
  unfold divRV mulRV
  have e : a i * R.fl (1 / s) - a i / s = a i * (R.fl (1 / s) - 1 / s) := by ring
  have h3 : |a i * R.fl (1 / s) - a i / s| ≤ u * |a i / s| := by
    rw [e, abs_mul, show a i / s = a i * (1 / s) by ring, abs_mul]
    calc |a i| * |R.fl (1 / s) - 1 / s| ≤ |a i| * (u * |1 / s|) := mul_le_mul_of_nonneg_left h1 (abs_nonneg _)
      _ = _ := by ring
  have h4 : |a i * R.fl (1 / s)| ≤ |a i / s| + u * |a i / s| := by
    have := abs_add_le (a i * R.fl (1 / s) - a i / s) (a i / s)
    rw [sub_add_cancel] at this
    linarith
  have h5 := abs_sub_le (R.fl (a i * R.fl (1 / s))) (a i * R.fl (1 / s)) (a i / s)
  have h6 : u * |a i * R.fl (1 / s)| ≤ u * (|a i / s| + u * |a i / s|) := mul_le_mul_of_nonneg_left h4 hu
  nlinarith

/-- **C32** The scalar product with rounding: the error is bounded by the sum of the absolute products. -/
theorem C32_rounded_dot {u : ℚ} (R : Rnd u) (n : ℕ) (a b : ℕ → ℚ) :
    |dotRV R n a b - ∑ i ∈ Finset.range n, a i * b i| ≤ ((1 + u) ^ (n + 1) - 1) * ∑ i ∈ Finset.range n, |a i * b i| := by
  have hu := R.u_nonneg
  induction n with
  | zero => simp [dotRV]
  | succ n ih =>
    unfold dotRV at ih ⊢
    rw [List.range_succ, List.foldl_append]
    simp only [List.foldl_cons, List.foldl_nil]
    rw [Finset.sum_range_succ, Finset.sum_range_succ]
    generalize List.foldl (fun s i => R.fl (s + R.fl (a i * b i))) 0 (List.range n) = x at ih ⊢
    have hST : |∑ i ∈ Finset.range n, a i * b i| ≤ ∑ i ∈ Finset.range n, |a i * b i| := Finset.abs_sum_le_sum_abs _ _
    have hT : 0 ≤ ∑ i ∈ Finset.range n, |a i * b i| := le_trans (abs_nonneg _) hST
    generalize ∑ i ∈ Finset.range n, a i * b i = S at *
    generalize ∑ i ∈ Finset.range n, |a i * b i| = T at *
    generalize a n * b n = q at *
    have h1 := R.rel q
    have h2 := R.rel (x + R.fl q)
    have hP : 1 ≤ (1 + u) ^ (n + 1) := one_le_pow₀ (by linarith)
    have hPu : (1 + u) ≤ (1 + u) ^ (n + 1) := le_self_pow₀ (by linarith) (by omega)
    have e1 : |x + R.fl q - (S + q)| ≤ ((1 + u) ^ (n + 1) - 1) * (T + |q|) := by
      have := abs_add_le (x - S) (R.fl q - q)
      rw [show x - S + (R.fl q - q) = x + R.fl q - (S + q) by ring] at this
      have h3 : u * |q| ≤ ((1 + u) ^ (n + 1) - 1) * |q| := mul_le_mul_of_nonneg_right (by linarith) (abs_nonneg _)
      linarith
    have e2 : |x + R.fl q| ≤ (1 + u) ^ (n + 1) * (T + |q|) := by
      have h3 := abs_add_le (x + R.fl q - (S + q)) (S + q)
      rw [sub_add_cancel] at h3
      have h4 := abs_add_le S q
      linarith
    have e3 := abs_sub_le (R.fl (x + R.fl q)) (x + R.fl q) (S + q)
    have e4 : u * |x + R.fl q| ≤ u * ((1 + u) ^ (n + 1) * (T + |q|)) := mul_le_mul_of_nonneg_left e2 hu
    calc |R.fl (x + R.fl q) - (S + q)| ≤ u * ((1 + u) ^ (n + 1) * (T + |q|)) + ((1 + u) ^ (n + 1) - 1) * (T + |q|) := by linarith
      _ = ((1 + u) ^ (n + 1 + 1) - 1) * (T + |q|) := by ring

/-- **C32** With rounding the scalar product is still symmetric and the sum of vectors commutative; a vector minus
itself, and its cross product with itself, are still zero. -/
theorem C32_rounded_laws {u : ℚ} (R : Rnd u) (n : ℕ) (a b : ℕ → ℚ) :
    dotRV R n a b = dotRV R n b a ∧ addRV R a b = addRV R b a ∧ (∀ i, subRV R a a i = 0) ∧ (∀ i, crossRV R a a i = 0) := by
  refine ⟨?_, ?_, ?_, ?_⟩
  · unfold dotRV; simp only [mul_comm]
  · funext i; unfold addRV; rw [add_comm]
  · intro i; unfold subRV; rw [sub_self, R.fl_zero]
  · intro i
    unfold crossRV
    split
    · rw [mul_comm (a 2), sub_self, R.fl_zero]
    · rw [mul_comm (a 0), sub_self, R.fl_zero]
    · rw [mul_comm (a 1), sub_self, R.fl_zero]
    · rfl

/-- **C32** With rounding to a number of binary digits the cross product still changes sign with the order. -/
theorem C32_rounded_cross_sign (p : ℕ) (a b : ℕ → ℚ) (i : ℕ) : crossRV (rndBits p) a b i = - crossRV (rndBits p) b a i := by
  have hneg : ∀ x, (rndBits p).fl (-x) = - (rndBits p).fl x := flBits_neg p
  unfold crossRV
  split
  · rw [← hneg, neg_sub, mul_comm (b 2), mul_comm (b 1)]
  · rw [← hneg, neg_sub, mul_comm (b 0), mul_comm (b 2)]
  · rw [← hneg, neg_sub, mul_comm (b 0), mul_comm (b 1)]
  · simp

/-- **C32, refuted** with rounding, for every number of digits: the sum of vectors is not associative. -/
theorem C32_refuted_rounded_sum (p : ℕ) (hp : 1 ≤ p) (i : ℕ) :
    addRV (rndBits p) (addRV (rndBits p) (fun _ => 1) (fun _ => 2 ^ (p + 1))) (fun _ => -2 ^ (p + 1)) i = 0 ∧
    addRV (rndBits p) (fun _ => 1) (addRV (rndBits p) (fun _ => 2 ^ (p + 1)) (fun _ => -2 ^ (p + 1))) i = 1 := by
  have h := flBits_lost p hp
  have h0 : (rndBits p).fl 0 = 0 := (rndBits p).fl_zero
  have h1 : (rndBits p).fl 1 = 1 := by
    have := flBits_exact p (e := 0) (m := 1) (by rw [abs_one]; exact one_le_pow₀ (by norm_num))
    simpa [rndBits] using this
  unfold addRV
  constructor
  · rw [show (1 : ℚ) + 2 ^ (p + 1) = 2 ^ (p + 1) + 1 by ring, show (rndBits p).fl (2 ^ (p + 1) + 1) = 2 ^ (p + 1) from h]
    rw [add_neg_cancel, h0]
  · rw [add_neg_cancel, h0, add_zero, h1]

/-- **C32, refuted** with rounding in `double` precision: a vector of entries 49 divided by 49 does not have
entries 1; the division of one number by itself does. -/
theorem C32_refuted_rounded_div (i : ℕ) :
    divRV (rndBits 52) (fun _ => 49) 49 i = 1 - 1 / 2 ^ 53 ∧ (rndBits 52).fl (49 / 49) = 1 := by
  have e1 : (rndBits 52).fl (1 / 49) = 5882252574524729 * 2 ^ (-58 : ℤ) := by
    have := flBits_eq 52 (x := 1 / 49) (e := -58) (m := 5882252574524729) (by norm_num [abs_of_pos]) (by norm_num [abs_of_pos])
      (by rw [abs_lt]; constructor <;> norm_num)
    simpa [rndBits] using this
  have e2 : (rndBits 52).fl (49 * (5882252574524729 * 2 ^ (-58 : ℤ))) = 9007199254740991 * 2 ^ (-53 : ℤ) := by
    have := flBits_eq 52 (x := 49 * (5882252574524729 * 2 ^ (-58 : ℤ))) (e := -53) (m := 9007199254740991)
      (by norm_num [abs_of_pos]) (by norm_num [abs_of_pos]) (by rw [abs_lt]; constructor <;> norm_num)
    simpa [rndBits] using this
  constructor
  · unfold divRV mulRV
    rw [e1, e2]
    norm_num
  · have := rndBits_int 1 (by norm_num)
    rw [div_self (by norm_num)]
    simpa using this

/-- The error bound at work: 1/49 three times. -/
example (i : ℕ) : |divRV (rndBits 52) (fun _ => 3) 49 i - 3 / 49| ≤ ((1 + 1 / 2 / 2 ^ 52) ^ 2 - 1) * |3 / 49| :=
  C32_rounded_div (rndBits 52) (fun _ => 3) 49 i

end Softlib
