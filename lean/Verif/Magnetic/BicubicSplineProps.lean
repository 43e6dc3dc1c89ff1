import Verif.Magnetic.BicubicModel
import Verif.Magnetic.AccessProps
import Verif.Magnetic.ConvertProps
import Verif.Magnetic.NumericProps
import Mathlib.Tactic.LinearCombination
import Mathlib.Tactic.FieldSimp
import Mathlib.Tactic.Ring
import Mathlib.Tactic.Positivity

namespace Softlib

open Softlib.Magnetic

noncomputable section

/-! ### the natural cubic spline -/

/-- The first `n` points increase. -/
def Rising (x : Nat → ℝ) (n : Nat) : Prop := ∀ i, i + 1 < n → x i < x (i + 1)

theorem gap_pos {x : Nat → ℝ} {n i : Nat} (h : Rising x n) (hi : i + 1 < n) : 0 < gap x i := sub_pos.2 (h i hi)

/-- C123: no division by zero: every pivot exceeds the off-diagonal entry that is divided by it. -/
theorem C123_pivots {x : Nat → ℝ} {n i : Nat} (h : Rising x n) (hi : i + 2 < n) : gap x (i + 1) < pivot x i := by
  induction i with
  | zero =>
    have h0 := gap_pos h (i := 0) (by omega)
    have h1 := gap_pos h (i := 1) (by omega)
    unfold pivot
    show gap x 1 < _
    linarith
  | succ i ih =>
    have h1 := gap_pos h (i := i + 1) (by omega)
    have h2 := gap_pos h (i := i + 2) (by omega)
    have ih := ih (by omega)
    have hp : 0 < pivot x i := h1.trans ih
    have : gap x (i + 1) * (gap x (i + 1) / pivot x i) ≤ gap x (i + 1) := by
      rw [mul_div_assoc', div_le_iff₀ hp]
      exact mul_le_mul_of_nonneg_left ih.le h1.le
    rw [pivot]
    show gap x (i + 2) < _
    linarith

theorem pivot_pos {x : Nat → ℝ} {n i : Nat} (h : Rising x n) (hi : i + 2 < n) : 0 < pivot x i :=
  (gap_pos h (i := i + 1) (by omega)).trans (C123_pivots h hi)

/-- Unknown `m` of the system. -/
def solution (x y : Nat → ℝ) (N m : Nat) : ℝ := backward id x y N (N - 1 - m)

theorem solution_last (x y : Nat → ℝ) (N : Nat) (hN : 0 < N) :
    pivot x (N - 1) ≠ 0 → pivot x (N - 1) * solution x y N (N - 1) = forward id x y (N - 1) := by
  intro h
  unfold solution
  rw [show N - 1 - (N - 1) = 0 by omega, backward]
  simp only [id]
  field_simp

theorem solution_step (x y : Nat → ℝ) (N m : Nat) (hm : m + 1 < N) :
    pivot x m ≠ 0 → pivot x m * solution x y N m + gap x (m + 1) * solution x y N (m + 1) = forward id x y m := by
  intro h
  unfold solution
  rw [show N - 1 - m = (N - 1 - (m + 1)) + 1 by omega, backward]
  rw [show N - 2 - (N - 1 - (m + 1)) = m by omega]
  simp only [id, mult]
  field_simp
  ring

/-- The pivots with the row before. -/
theorem solution_row (x y : Nat → ℝ) (N m : Nat) (hN : 0 < N) (hm : m < N) (hp : ∀ i, i < N → pivot x i ≠ 0) :
    (if m = 0 then 0 else gap x m * solution x y N (m - 1)) + 2 * (gap x (m + 1) + gap x m) * solution x y N m +
      (if m + 1 = N then 0 else gap x (m + 1) * solution x y N (m + 1)) = rhs id x y m := by
  have fwd : pivot x m * solution x y N m + (if m + 1 = N then 0 else gap x (m + 1) * solution x y N (m + 1)) = forward id x y m := by
    split_ifs with h
    · obtain rfl : m = N - 1 := by omega
      rw [add_zero]; exact solution_last x y N hN (hp _ hm)
    · exact solution_step x y N m (by omega) (hp _ hm)
  cases m with
  | zero =>
    rw [if_pos rfl]
    simp only [pivot, forward] at fwd
    linarith
  | succ i =>
    rw [if_neg (by omega)]
    have prev := solution_step x y N i (by omega) (hp _ (by omega))
    have hne := hp i (by omega)
    simp only [forward, id, mult] at fwd
    rw [pivot] at fwd
    show gap x (i + 1) * solution x y N i + _ + _ = _
    generalize (if i + 1 + 1 = N then 0 else gap x (i + 1 + 1) * solution x y N (i + 1 + 1)) = w at *
    rw [← prev] at fwd
    have e : gap x (i + 1) / pivot x i * (pivot x i * solution x y N i + gap x (i + 1) * solution x y N (i + 1)) =
        gap x (i + 1) * solution x y N i + gap x (i + 1) * (gap x (i + 1) / pivot x i) * solution x y N (i + 1) := by
      field_simp
    rw [e] at fwd
    linarith [fwd]

theorem curv_solution (x y : Nat → ℝ) (n i : Nat) (hi : i + 2 < n) : curv id x y n (i + 1) = solution x y (n - 2) i := by
  unfold curv solution
  rw [if_neg (by omega), show n - 2 - (i + 1) = n - 2 - 1 - i by omega]

/-- C123: the numbers computed are the curvatures of the natural cubic spline: zero at the ends, and inside the equations hold that
make the second derivative continuous. -/
theorem C123_curvature {x y : Nat → ℝ} {n : Nat} (h : Rising x n) :
    curv id x y n 0 = 0 ∧ curv id x y n (n - 1) = 0 ∧
    ∀ i, i + 2 < n → gap x i * curv id x y n i + 2 * (gap x i + gap x (i + 1)) * curv id x y n (i + 1) + gap x (i + 1) * curv id x y n (i + 2) =
      3 * ((y (i + 2) - y (i + 1)) / gap x (i + 1) - (y (i + 1) - y i) / gap x i) := by
  refine ⟨by simp [curv], ?_, ?_⟩
  · unfold curv
    rw [if_pos]
    · rfl
    · omega
  intro i hi
  have row := solution_row x y (n - 2) i (by omega) (by omega) fun k hk => (pivot_pos h (by omega)).ne'
  have e0 : (if i = 0 then 0 else gap x i * solution x y (n - 2) (i - 1)) = gap x i * curv id x y n i := by
    cases i with
    | zero => simp [curv]
    | succ i => rw [if_neg (by omega), curv_solution x y n i (by omega)]; rfl
  have e1 : (if i + 1 = n - 2 then 0 else gap x (i + 1) * solution x y (n - 2) (i + 1)) = gap x (i + 1) * curv id x y n (i + 2) := by
    split_ifs with hh
    · unfold curv; rw [if_pos (by omega)]; simp
    · rw [curv_solution x y n (i + 1) (by omega)]
  rw [e0, e1, ← curv_solution x y n i hi] at row
  have h0 := (gap_pos h (i := i) (by omega)).ne'
  have h1 := (gap_pos h (i := i + 1) (by omega)).ne'
  unfold rhs recip at row
  rw [if_pos h0, if_pos h1] at row
  simp only [id] at row
  rw [div_eq_mul_one_div (y (i + 2) - y (i + 1)), div_eq_mul_one_div (y (i + 1) - y i), ← row]
  ring

/-- C123: at a node inside the grid both adjoining intervals give the same derivative, so that it does not matter in which of them it
is looked for. -/
theorem C123_sides {x y : Nat → ℝ} {n i : Nat} (h : Rising x n) (hi : i + 2 < n) :
    splineDeriv id x y n i (x (i + 1)) = splineDeriv id x y n (i + 1) (x (i + 1)) := by
  have e := (C123_curvature (y := y) h).2.2 i hi
  have h0 := (gap_pos h (i := i) (by omega)).ne'
  have h1 := (gap_pos h (i := i + 1) (by omega)).ne'
  unfold splineDeriv
  simp only [id, sub_self, show x (i + 1) - x i = gap x i from rfl]
  rw [show i + 1 + 1 = i + 2 from rfl]
  generalize curv id x y n i = c0 at *
  generalize curv id x y n (i + 1) = c1 at *
  generalize curv id x y n (i + 2) = c2 at *
  generalize gap x i = a at *
  generalize gap x (i + 1) = b at *
  generalize y (i + 2) = y2 at *
  generalize y (i + 1) = y1 at *
  generalize y i = y0 at *
  field_simp at e ⊢
  linear_combination e

/-! ### straight lines -/

theorem recip_gap {x : Nat → ℝ} {n i : Nat} (h : Rising x n) (hi : i + 1 < n) : recip (gap x i) = 1 / gap x i :=
  if_pos (gap_pos h hi).ne'

theorem rhs_line {x y : Nat → ℝ} {n : Nat} (h : Rising x n) {a b : ℝ} (hy : ∀ k, k < n → y k = a + b * x k) (i : Nat) (hi : i + 2 < n) :
    rhs id x y i = 0 := by
  have h0 := (gap_pos h (i := i) (by omega)).ne'
  have h1 := (gap_pos h (i := i + 1) (by omega)).ne'
  unfold rhs
  rw [recip_gap h (i := i) (by omega), recip_gap h (i := i + 1) (by omega), hy _ hi, hy (i + 1) (by omega), hy i (by omega)]
  simp only [id]
  rw [show a + b * x (i + 2) - (a + b * x (i + 1)) = b * gap x (i + 1) by unfold gap; ring,
    show a + b * x (i + 1) - (a + b * x i) = b * gap x i by unfold gap; ring]
  field_simp
  ring

theorem forward_line {x y : Nat → ℝ} {n : Nat} (h : Rising x n) {a b : ℝ} (hy : ∀ k, k < n → y k = a + b * x k) (i : Nat) (hi : i + 2 < n) :
    forward id x y i = 0 := by
  induction i with
  | zero => exact rhs_line h hy 0 hi
  | succ i ih => rw [forward, rhs_line h hy (i + 1) hi, ih (by omega)]; simp

theorem backward_line {x y : Nat → ℝ} {n : Nat} (h : Rising x n) {a b : ℝ} (hy : ∀ k, k < n → y k = a + b * x k) (hn : 2 < n) (k : Nat) :
    backward id x y (n - 2) k = 0 := by
  induction k with
  | zero => rw [backward, forward_line h hy _ (by omega)]; simp
  | succ k ih => rw [backward, forward_line h hy _ (by omega), ih]; simp

theorem curv_line {x y : Nat → ℝ} {n : Nat} (h : Rising x n) {a b : ℝ} (hy : ∀ k, k < n → y k = a + b * x k) (hn : 2 < n) (k : Nat) :
    curv id x y n k = 0 := by
  unfold curv
  split_ifs
  · rfl
  · exact backward_line h hy hn _

theorem slope_line {x y : Nat → ℝ} {n : Nat} (h : Rising x n) {a b : ℝ} (hy : ∀ k, k < n → y k = a + b * x k) (hn : 2 < n) (i : Nat) :
    nodeSlope id x y n i = b := by
  unfold nodeSlope
  have hk : (if i + 1 < n then i else n - 2) + 1 < n := by split_ifs <;> omega
  generalize (if i + 1 < n then i else n - 2) = k at *
  have h0 := (gap_pos h hk).ne'
  unfold splineDeriv
  simp only [id, curv_line h hy hn, hy _ hk, hy k (by omega)]
  rw [show a + b * x (k + 1) - (a + b * x k) = b * gap x k by unfold gap; ring]
  field_simp
  ring

/-! ### cells -/

theorem poly_val (v : Nat → Nat → ℝ) (t u : ℝ) :
    polySum id v 0 0 t u = ∑ a ∈ Finset.range 4, ∑ b ∈ Finset.range 4, v a b * t ^ a * u ^ b := by
  simp [polySum, List.range', Finset.sum_range_succ]
  ring

theorem poly_dx (v : Nat → Nat → ℝ) (t u : ℝ) :
    polySum id v 1 0 t u = ∑ a ∈ Finset.range 4, ∑ b ∈ Finset.range 4, v a b * (a * t ^ (a - 1)) * u ^ b := by
  simp [polySum, List.range', Finset.sum_range_succ]
  ring

theorem poly_dy (v : Nat → Nat → ℝ) (t u : ℝ) :
    polySum id v 0 1 t u = ∑ a ∈ Finset.range 4, ∑ b ∈ Finset.range 4, v a b * t ^ a * (b * u ^ (b - 1)) := by
  simp [polySum, List.range', Finset.sum_range_succ]
  ring

/-- In a cell the derivative functions are the derivatives of the value. -/
theorem cell_smooth (x0 x1 y0 y1 : ℝ) (p q r s : Corner ℝ) (X Y : ℝ → ℝ) (u w t : ℝ) (hX : HasDerivAt X u t) (hY : HasDerivAt Y w t) :
    HasDerivAt (fun a => cellPoly id 0 0 x0 x1 y0 y1 p q r s (X a) (Y a))
      (cellPoly id 1 0 x0 x1 y0 y1 p q r s (X t) (Y t) * u + cellPoly id 0 1 x0 x1 y0 y1 p q r s (X t) (Y t) * w) t := by
  unfold cellPoly
  simp only [poly_val, poly_dx, poly_dy, id, if_true, mul_one, one_ne_zero, if_false]
  generalize coeff id _ _ _ _ = v
  have hT : HasDerivAt (fun a => (X a - x0) / (x1 - x0)) (u / (x1 - x0)) t := (hX.sub_const x0).div_const _
  have hU : HasDerivAt (fun a => (Y a - y0) / (y1 - y0)) (w / (y1 - y0)) t := (hY.sub_const y0).div_const _
  have := HasDerivAt.fun_sum (u := Finset.range 4) fun a _ => HasDerivAt.fun_sum (u := Finset.range 4) fun b _ =>
    ((hT.fun_pow a).const_mul (v a b)).fun_mul (hU.fun_pow b)
  refine this.congr_deriv ?_
  generalize (X t - x0) / (x1 - x0) = T
  generalize (Y t - y0) / (y1 - y0) = U
  rw [Finset.sum_mul, Finset.sum_mul, Finset.sum_mul, Finset.sum_mul, ← Finset.sum_add_distrib]
  refine Finset.sum_congr rfl fun a _ => ?_
  rw [Finset.sum_mul, Finset.sum_mul, Finset.sum_mul, Finset.sum_mul, ← Finset.sum_add_distrib]
  refine Finset.sum_congr rfl fun b _ => ?_
  ring

theorem scale_real (k : Corner ℝ) (a b : ℝ) : k.scale id (1 / a) (1 / b) = ⟨k.z, k.zx * a, k.zy * b, k.zxy * (a * b)⟩ := by
  simp [Corner.scale]
  field_simp

theorem coeff_sum (p q r s : Corner ℝ) (f : Nat → Nat → ℝ) :
    ∑ a ∈ Finset.range 4, ∑ b ∈ Finset.range 4, coeff id p q r s a b * f a b =
    p.z * f 0 0 + p.zy * f 0 1 + (-3 * p.z + 3 * q.z - 2 * p.zy - q.zy) * f 0 2 + (2 * p.z - 2 * q.z + p.zy + q.zy) * f 0 3 +
    (p.zx * f 1 0 + p.zxy * f 1 1 + (-3 * p.zx + 3 * q.zx - 2 * p.zxy - q.zxy) * f 1 2 + (2 * p.zx - 2 * q.zx + p.zxy + q.zxy) * f 1 3) +
    ((-3 * p.z + 3 * r.z - 2 * p.zx - r.zx) * f 2 0 + (-3 * p.zy + 3 * r.zy - 2 * p.zxy - r.zxy) * f 2 1 +
      (9 * p.z - 9 * r.z + 9 * s.z - 9 * q.z + 6 * p.zx + 3 * r.zx - 3 * s.zx - 6 * q.zx + 6 * p.zy - 6 * r.zy
        - 3 * s.zy + 3 * q.zy + 4 * p.zxy + 2 * r.zxy + s.zxy + 2 * q.zxy) * f 2 2 +
      (-6 * p.z + 6 * r.z - 6 * s.z + 6 * q.z - 4 * p.zx - 2 * r.zx + 2 * s.zx + 4 * q.zx - 3 * p.zy + 3 * r.zy
        + 3 * s.zy - 3 * q.zy - 2 * p.zxy - r.zxy - s.zxy - 2 * q.zxy) * f 2 3) +
    ((2 * p.z - 2 * r.z + p.zx + r.zx) * f 3 0 + (2 * p.zy - 2 * r.zy + p.zxy + r.zxy) * f 3 1 +
      (-6 * p.z + 6 * r.z - 6 * s.z + 6 * q.z - 3 * p.zx - 3 * r.zx + 3 * s.zx + 3 * q.zx - 4 * p.zy + 4 * r.zy
        + 2 * s.zy - 2 * q.zy - 2 * p.zxy - 2 * r.zxy - s.zxy - q.zxy) * f 3 2 +
      (4 * p.z - 4 * r.z + 4 * s.z - 4 * q.z + 2 * p.zx + 2 * r.zx - 2 * s.zx - 2 * q.zx + 2 * p.zy - 2 * r.zy
        - 2 * s.zy + 2 * q.zy + p.zxy + r.zxy + s.zxy + q.zxy) * f 3 3) := by
  simp only [Finset.sum_range_succ, Finset.sum_range_zero, zero_add]
  rfl

theorem poly_val' (v : Nat → Nat → ℝ) (t u : ℝ) :
    polySum id v 0 0 t u = ∑ a ∈ Finset.range 4, ∑ b ∈ Finset.range 4, v a b * (t ^ a * u ^ b) := by
  rw [poly_val]; simp only [mul_assoc]

theorem poly_dx' (v : Nat → Nat → ℝ) (t u : ℝ) :
    polySum id v 1 0 t u = ∑ a ∈ Finset.range 4, ∑ b ∈ Finset.range 4, v a b * (a * t ^ (a - 1) * u ^ b) := by
  rw [poly_dx]; simp only [mul_assoc]

theorem poly_dy' (v : Nat → Nat → ℝ) (t u : ℝ) :
    polySum id v 0 1 t u = ∑ a ∈ Finset.range 4, ∑ b ∈ Finset.range 4, v a b * (t ^ a * (b * u ^ (b - 1))) := by
  rw [poly_dy]; simp only [mul_assoc]

/-- What is computed in a cell: value, or one of the first derivatives. -/
def Order (da db : Nat) : Prop := da = 0 ∧ db = 0 ∨ da = 1 ∧ db = 0 ∨ da = 0 ∧ db = 1

theorem join_x {da db : Nat} (ho : Order da db) (x0 x1 x2 y0 y1 : ℝ) (h0 : x1 - x0 ≠ 0) (h1 : x2 - x1 ≠ 0) (hy : y1 - y0 ≠ 0)
    (p q r s p' q' : Corner ℝ) (y : ℝ) :
    cellPoly id da db x0 x1 y0 y1 p q r s x1 y = cellPoly id da db x1 x2 y0 y1 r s p' q' x1 y := by
  rcases ho with ⟨rfl, rfl⟩ | ⟨rfl, rfl⟩ | ⟨rfl, rfl⟩ <;>
  · unfold cellPoly
    simp only [poly_val', poly_dx', poly_dy', if_true, one_ne_zero, if_false, sub_self, zero_div, div_self h0, scale_real]
    generalize (y - y0) / (y1 - y0) = U
    obtain ⟨a, ha⟩ : ∃ a, x1 - x0 = a := ⟨_, rfl⟩
    obtain ⟨b, hb⟩ : ∃ a, x2 - x1 = a := ⟨_, rfl⟩
    obtain ⟨d, hd⟩ : ∃ a, y1 - y0 = a := ⟨_, rfl⟩
    simp only [ha, hb, hd] at *
    simp only [coeff_sum, id, Nat.cast_zero, Nat.cast_one, Nat.cast_ofNat, one_pow, ne_eq, OfNat.ofNat_ne_zero, not_false_eq_true, zero_pow,
      pow_zero, pow_one, mul_one, mul_zero, zero_mul, add_zero, zero_add, one_mul, Nat.sub_self, Nat.zero_sub, Nat.reduceSub, one_ne_zero]
    field_simp
    ring

theorem join_y {da db : Nat} (ho : Order da db) (x0 x1 y0 y1 y2 : ℝ) (h0 : y1 - y0 ≠ 0) (h1 : y2 - y1 ≠ 0) (hx : x1 - x0 ≠ 0)
    (p q r s p' q' : Corner ℝ) (x : ℝ) :
    cellPoly id da db x0 x1 y0 y1 p q r s x y1 = cellPoly id da db x0 x1 y1 y2 q p' s q' x y1 := by
  rcases ho with ⟨rfl, rfl⟩ | ⟨rfl, rfl⟩ | ⟨rfl, rfl⟩ <;>
  · unfold cellPoly
    simp only [poly_val', poly_dx', poly_dy', if_true, one_ne_zero, if_false, sub_self, zero_div, div_self h0, scale_real]
    generalize (x - x0) / (x1 - x0) = U
    obtain ⟨a, ha⟩ : ∃ a, y1 - y0 = a := ⟨_, rfl⟩
    obtain ⟨b, hb⟩ : ∃ a, y2 - y1 = a := ⟨_, rfl⟩
    obtain ⟨d, hd⟩ : ∃ a, x1 - x0 = a := ⟨_, rfl⟩
    simp only [ha, hb, hd] at *
    simp only [coeff_sum, id, Nat.cast_zero, Nat.cast_one, Nat.cast_ofNat, one_pow, ne_eq, OfNat.ofNat_ne_zero, not_false_eq_true, zero_pow,
      pow_zero, pow_one, mul_one, mul_zero, zero_mul, add_zero, zero_add, one_mul, Nat.sub_self, Nat.zero_sub, Nat.reduceSub, one_ne_zero]
    field_simp
    ring

/-- At its corners a cell has the values stored there. -/
theorem cell_corners (x0 x1 y0 y1 : ℝ) (hx : x1 - x0 ≠ 0) (hy : y1 - y0 ≠ 0) (p q r s : Corner ℝ) :
    let f := fun da db => cellPoly id da db x0 x1 y0 y1 p q r s
    (f 0 0 x0 y0 = p.z ∧ f 1 0 x0 y0 = p.zx ∧ f 0 1 x0 y0 = p.zy) ∧ (f 0 0 x0 y1 = q.z ∧ f 1 0 x0 y1 = q.zx ∧ f 0 1 x0 y1 = q.zy) ∧
    (f 0 0 x1 y0 = r.z ∧ f 1 0 x1 y0 = r.zx ∧ f 0 1 x1 y0 = r.zy) ∧ (f 0 0 x1 y1 = s.z ∧ f 1 0 x1 y1 = s.zx ∧ f 0 1 x1 y1 = s.zy) := by
  intro f
  refine ⟨⟨?_, ?_, ?_⟩, ⟨?_, ?_, ?_⟩, ⟨?_, ?_, ?_⟩, ⟨?_, ?_, ?_⟩⟩ <;>
  · simp only [f]
    unfold cellPoly
    simp only [poly_val', poly_dx', poly_dy', coeff_sum]
    simp only [if_true, one_ne_zero, if_false, sub_self, zero_div, div_self hx, div_self hy, scale_real]
    obtain ⟨a, ha⟩ : ∃ a, x1 - x0 = a := ⟨_, rfl⟩
    obtain ⟨b, hb⟩ : ∃ a, y1 - y0 = a := ⟨_, rfl⟩
    simp only [ha, hb] at *
    simp only [id, Nat.cast_zero, Nat.cast_one, Nat.cast_ofNat, one_pow, ne_eq, OfNat.ofNat_ne_zero, not_false_eq_true, zero_pow,
      pow_zero, pow_one, mul_one, mul_zero, zero_mul, add_zero, zero_add, one_mul, Nat.sub_self, Nat.zero_sub, Nat.reduceSub, one_ne_zero]
    try field_simp
    try ring

/-- The four corners of a function that is linear in either coordinate give this function. -/
theorem cell_bilinear (x0 x1 y0 y1 : ℝ) (hx : x1 - x0 ≠ 0) (hy : y1 - y0 ≠ 0) (a b c d x y : ℝ) :
    let k := fun x y : ℝ => (⟨a + b * x + c * y + d * x * y, b + d * y, c + d * x, d⟩ : Corner ℝ)
    let f := fun da db => cellPoly id da db x0 x1 y0 y1 (k x0 y0) (k x0 y1) (k x1 y0) (k x1 y1) x y
    f 0 0 = a + b * x + c * y + d * x * y ∧ f 1 0 = b + d * y ∧ f 0 1 = c + d * x := by
  intro k f
  refine ⟨?_, ?_, ?_⟩ <;>
  · simp only [f, k]
    unfold cellPoly
    simp only [poly_val', poly_dx', poly_dy', if_true, one_ne_zero, if_false, scale_real, coeff_sum]
    obtain ⟨T, hT⟩ : ∃ T, (x - x0) / (x1 - x0) = T := ⟨_, rfl⟩
    obtain ⟨U, hU⟩ : ∃ U, (y - y0) / (y1 - y0) = U := ⟨_, rfl⟩
    rw [hT, hU]
    rw [div_eq_iff hx] at hT
    rw [div_eq_iff hy] at hU
    obtain ⟨m, rfl⟩ : ∃ m, x1 = x0 + m := ⟨x1 - x0, by ring⟩
    obtain ⟨l, rfl⟩ : ∃ m, y1 = y0 + m := ⟨y1 - y0, by ring⟩
    rw [add_sub_cancel_left] at hx hy hT hU
    obtain rfl : x = T * m + x0 := by linarith
    obtain rfl : y = U * l + y0 := by linarith
    simp only [add_sub_cancel_left, id, Nat.cast_zero, Nat.cast_one, Nat.cast_ofNat, 
      pow_zero, pow_one, mul_one, mul_zero, zero_mul, add_zero, zero_add, one_mul, Nat.sub_self, Nat.zero_sub, Nat.reduceSub, one_ne_zero]
    field_simp
    try ring

end

end Softlib
