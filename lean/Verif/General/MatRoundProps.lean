/-
C33 with rounding: products of matrices and vectors.  Model: MatRoundModel.lean.
-/
import Verif.General.MatRoundModel
import Verif.General.VecRoundProps

namespace Softlib

open General

/-- C33: without rounding this is the model of `VectorModel.lean`. -/
theorem C33_rounded_exact (M N K r a b v : ℕ) (m : Mem ℚ) (ha : a ≠ r) (hb : b ≠ r) (hv : v ≠ r) :
    (∀ i j, i < M → j < K → el (mmul M N K r a b m) K r i j = mulRM exactRnd N (el m N a) (el m K b) i j) ∧
    (∀ i, i < M → mvmul M N r a v m r i = mulRMV exactRnd N (el m N a) (m v) i) ∧
    (∀ i j, i < M → j < K → el (mouter M K r a b m) K r i j = outerRM exactRnd (m a) (m b) i j) := by
  refine ⟨fun i j hi hj => ?_, fun i hi => ?_, fun i j hi hj => ?_⟩
  · rw [(C33_matrix_product M N K r a b ha hb m).1 i j hi hj]
    exact (foldl_sum (fun k => el m N a i k * el m K b k j) N).symm
  · rw [(C33_matrix_vector M N r a v ha hv m).1 i hi]
    exact (foldl_sum (fun j => el m N a i j * m v j) N).symm
  · rw [(C33_construction M K r a b ha hb (fun _ _ => 0) m).2.1 i j hi hj]
    rfl

/-- C33, the product of matrices of every shape: each element is wrong by at most `(1 + u)^(N+1) - 1` times
that of the product of the absolute values. -/
theorem C33_rounded_product {u : ℚ} (R : Rnd u) (N : ℕ) (a b : ℕ → ℕ → ℚ) (i j : ℕ) :
    |mulRM R N a b i j - ∑ k ∈ Finset.range N, a i k * b k j| ≤
      ((1 + u) ^ (N + 1) - 1) * ∑ k ∈ Finset.range N, |a i k * b k j| :=
  C32_rounded_dot R N (a i) (fun k => b k j)

/-- C33, the product of a matrix and a vector. -/
theorem C33_rounded_vector {u : ℚ} (R : Rnd u) (N : ℕ) (a : ℕ → ℕ → ℚ) (v : ℕ → ℚ) (i : ℕ) :
    |mulRMV R N a v i - ∑ j ∈ Finset.range N, a i j * v j| ≤
      ((1 + u) ^ (N + 1) - 1) * ∑ j ∈ Finset.range N, |a i j * v j| :=
  C32_rounded_dot R N (a i) v

/-- C33, the matrix made of two vectors. -/
theorem C33_rounded_outer {u : ℚ} (R : Rnd u) (a b : ℕ → ℚ) (i j : ℕ) : |outerRM R a b i j - a i * b j| ≤ u * |a i * b j| :=
  R.rel _

/-- A sum in which one product at most is not zero is not rounded further. -/
theorem one_term {u : ℚ} (R : Rnd u) (f : ℕ → ℚ) (n p : ℕ) (hf : ∀ k, k ≠ p → f k = 0) (hp : R.Is (f p)) :
    (List.range n).foldl (fun s k => R.fl (s + R.fl (f k))) 0 = if p < n then f p else 0 := by
  induction n with
  | zero => rfl
  | succ n ih =>
    rw [List.range_succ, List.foldl_append, ih]
    simp only [List.foldl_cons, List.foldl_nil]
    by_cases h : p = n
    · subst h
      rw [if_neg (lt_irrefl _), if_pos (Nat.lt_succ_self _), zero_add, R.idem]; exact hp
    · rw [hf n (Ne.symm h), R.fl_zero, add_zero]
      by_cases h' : p < n
      · rw [if_pos h', if_pos (by omega)]; exact hp
      · rw [if_neg h', if_neg (by omega), R.fl_zero]

/-- C33: multiplying by the unit matrix from either side changes nothing, whatever the rounding. -/
theorem C33_rounded_unit {u : ℚ} (R : Rnd u) (N : ℕ) (a : ℕ → ℕ → ℚ) (ha : ∀ i j, R.Is (a i j)) (i j : ℕ) :
    (j < N → mulRM R N a (fun k l => if k = l then 1 else 0) i j = a i j) ∧
    (i < N → mulRM R N (fun k l => if k = l then 1 else 0) a i j = a i j) := by
  refine ⟨fun hj => ?_, fun hi => ?_⟩
  · have := one_term R (fun k => a i k * if k = j then 1 else 0) N j (fun k hk => by simp [hk]) (by simpa using ha i j)
    rw [mulRM, this, if_pos hj]; simp
  · have := one_term R (fun k => (if i = k then 1 else 0) * a k j) N i (fun k hk => by simp [Ne.symm hk]) (by simpa using ha i j)
    rw [mulRM, this, if_pos hi]; simp

/-- C33 as stated is refuted with rounding: the product of `(1, 2^(p+1), -2^(p+1))` and the column of ones
is `1`, computed `0`, for every precision. -/
theorem C33_refuted_rounded (p : ℕ) (hp : 1 ≤ p) :
    mulRMV (rndBits p) 3 (fun _ j => if j = 0 then 1 else if j = 1 then 2 ^ (p + 1) else -2 ^ (p + 1)) (fun _ => 1) 0 = 0 ∧
    ∑ j ∈ Finset.range 3, (if j = 0 then (1 : ℚ) else if j = 1 then 2 ^ (p + 1) else -2 ^ (p + 1)) * 1 = 1 := by
  have h := (C32_refuted_rounded_sum p hp 0).1
  have h0 : (rndBits p).fl 0 = 0 := (rndBits p).fl_zero
  have h1 : (rndBits p).fl 1 = 1 := by
    have := flBits_exact p (e := 0) (m := 1) (by rw [abs_one]; exact one_le_pow₀ (by norm_num))
    simpa [rndBits] using this
  have h2 : (rndBits p).fl (2 ^ (p + 1)) = 2 ^ (p + 1) := by
    have := flBits_exact p (e := (p : ℤ) + 1) (m := 1) (by rw [abs_one]; exact one_le_pow₀ (by norm_num))
    have e : (2 : ℚ) ^ ((p : ℤ) + 1) = 2 ^ (p + 1) := by exact_mod_cast rfl
    rw [e] at this
    simpa [rndBits] using this
  have h3 : (rndBits p).fl (-2 ^ (p + 1)) = -2 ^ (p + 1) := by
    rw [show (rndBits p).fl (-2 ^ (p + 1)) = - (rndBits p).fl (2 ^ (p + 1)) from flBits_neg p _, h2]
  refine ⟨?_, ?_⟩
  · simp only [addRV] at h
    simp only [mulRMV, List.range_succ, List.range_zero, List.nil_append, List.cons_append, List.foldl_cons, List.foldl_nil, if_true,
      one_ne_zero, if_false, mul_one, zero_add, h1, show (2 : ℕ) ≠ 0 by decide, show (2 : ℕ) ≠ 1 by decide, h2, h3]
    exact h
  · simp [Finset.sum_range_succ]

/-- The hypothesis of `C33_rounded_unit` is met by matrices of whole numbers of the format, here `i + j`
below `2^(p+1)` and zero elsewhere. -/
example (p i j : ℕ) : (rndBits p).Is (if i + j ≤ 2 ^ (p + 1) then ((i + j : ℕ) : ℚ) else 0) := by
  split_ifs with h
  · have := flBits_exact p (e := 0) (m := ((i + j : ℕ) : ℤ)) (by rw [Nat.abs_cast]; exact_mod_cast h)
    simpa [rndBits, Rnd.Is] using this
  · exact (rndBits p).fl_zero

end Softlib
