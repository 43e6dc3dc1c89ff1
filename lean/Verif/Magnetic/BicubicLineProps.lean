/-
C123, continued: along the lines of the grid the bicubic interpolation is the natural cubic spline through the values stored there.
-/
import Verif.Magnetic.BicubicProps
import Mathlib.Algebra.BigOperators.Ring.Finset
import Mathlib.Data.Finset.Max

namespace Softlib
open Softlib.Magnetic

noncomputable section

/-- `f` is the natural cubic spline through the points `(x i, y i)`, `i < n`: on every interval a cubic polynomial with half the second derivative
`c i` at its left and `c (i + 1)` at its right end, zero at the two ends of the grid, so that values and first derivatives agree where intervals
meet. -/
def NaturalCubic (x : Nat → ℝ) (n : Nat) (y : Nat → ℝ) (f : ℝ → ℝ) : Prop :=
  ∃ c : Nat → ℝ, c 0 = 0 ∧ c (n - 1) = 0 ∧
    (∀ i, i + 2 < n → (x (i + 1) - x i) * c i + 2 * (x (i + 2) - x i) * c (i + 1) + (x (i + 2) - x (i + 1)) * c (i + 2) =
      3 * ((y (i + 2) - y (i + 1)) / (x (i + 2) - x (i + 1)) - (y (i + 1) - y i) / (x (i + 1) - x i))) ∧
    ∀ i a, UsableCell x n i a →
      f a = y i + ((y (i + 1) - y i) / (x (i + 1) - x i) - (x (i + 1) - x i) * (c (i + 1) + 2 * c i) / 3) * (a - x i) + c i * (a - x i) ^ 2 +
        (c (i + 1) - c i) / (3 * (x (i + 1) - x i)) * (a - x i) ^ 3

/-- There is one such function. -/
theorem C123_spline_unique {x : Nat → ℝ} {n : Nat} (h : Rising x n) (y : Nat → ℝ) (f g : ℝ → ℝ) (hf : NaturalCubic x n y f)
    (hg : NaturalCubic x n y g) (i : Nat) (a : ℝ) (ha : UsableCell x n i a) : f a = g a := by
  obtain ⟨c, c0, c1, c2, c3⟩ := hf
  obtain ⟨d, d0, d1, d2, d3⟩ := hg
  have hn : 2 ≤ n := by have := ha.cell; omega
  have key : ∀ k, k < n → c k = d k := by
    obtain ⟨m, hm, hmax⟩ := Finset.exists_max_image (Finset.range n) (fun k => |c k - d k|) ⟨0, by simp; omega⟩
    rw [Finset.mem_range] at hm
    have hz : |c m - d m| ≤ 0 := by
      by_cases h0 : m = 0
      · rw [h0, c0, d0]; simp
      by_cases h1 : m = n - 1
      · rw [h1, c1, d1]; simp
      obtain ⟨k, rfl⟩ : ∃ k, m = k + 1 := ⟨m - 1, by omega⟩
      have e1 := c2 k (by omega)
      have e2 := d2 k (by omega)
      have p1 : 0 < x (k + 1) - x k := sub_pos.2 (h k (by omega))
      have p2 : 0 < x (k + 2) - x (k + 1) := sub_pos.2 (h (k + 1) (by omega))
      have m1 := hmax k (by simp; omega)
      have m2 := hmax (k + 2) (by simp; omega)
      have e3 : 2 * (x (k + 2) - x k) * (c (k + 1) - d (k + 1)) = -((x (k + 1) - x k) * (c k - d k) + (x (k + 2) - x (k + 1)) * (c (k + 2) - d (k + 2))) := by
        linear_combination e1 - e2
      have e4 := congrArg abs e3
      rw [abs_neg, abs_mul, abs_of_pos (show 0 < 2 * (x (k + 2) - x k) by linarith)] at e4
      have e5 := abs_add_le ((x (k + 1) - x k) * (c k - d k)) ((x (k + 2) - x (k + 1)) * (c (k + 2) - d (k + 2)))
      rw [abs_mul, abs_mul, abs_of_pos p1, abs_of_pos p2] at e5
      have q1 := mul_le_mul_of_nonneg_left m1 p1.le
      have q2 := mul_le_mul_of_nonneg_left m2 p2.le
      have : (x (k + 2) - x k) * |c (k + 1) - d (k + 1)| ≤ 0 := by
        have : x (k + 2) - x k = (x (k + 1) - x k) + (x (k + 2) - x (k + 1)) := by ring
        rw [this] at e4 ⊢
        linarith
      by_contra hc
      have := mul_pos (show 0 < x (k + 2) - x k by linarith) (not_le.1 hc)
      linarith
    intro k hk
    have := le_trans (hmax k (by simpa using hk)) hz
    exact sub_eq_zero.1 (abs_nonpos_iff.1 this)
  have hc := ha.cell
  rw [c3 i a ha, d3 i a ha, key i (by omega), key (i + 1) hc]

theorem natural_congr {x : Nat → ℝ} {n : Nat} {y y' : Nat → ℝ} {f : ℝ → ℝ} (hf : NaturalCubic x n y f) (h : ∀ i, i < n → y' i = y i) :
    NaturalCubic x n y' f := by
  obtain ⟨c, c0, c1, c2, c3⟩ := hf
  refine ⟨c, c0, c1, fun i hi => ?_, fun i a fi => ?_⟩
  · rw [h i (by omega), h (i + 1) (by omega), h (i + 2) (by omega)]
    exact c2 i hi
  · have := fi.cell
    rw [h i (by omega), h (i + 1) (by omega)]
    exact c3 i a fi

/-! ### derivatives at nodes, from the left and from the right -/

theorem slope_left {x y : Nat → ℝ} {n i : Nat} (hi : i + 1 < n) : nodeSlope id x y n i = splineDeriv id x y n i (x i) := by
  rw [nodeSlope, if_pos hi]

theorem slope_right {x y : Nat → ℝ} {n i : Nat} (h : Rising x n) (hi : i + 1 < n) :
    nodeSlope id x y n (i + 1) = splineDeriv id x y n i (x (i + 1)) := by
  by_cases h2 : i + 1 + 1 < n
  · rw [nodeSlope, if_pos h2, C123_sides h h2]
  · rw [nodeSlope, if_neg h2, show n - 2 = i by omega]

/-- The cubic polynomial with given values and derivatives at the ends of an interval. -/
def hermite (h z0 z1 m0 m1 t : ℝ) : ℝ :=
  z0 + m0 * t + (3 * (z1 - z0) / h - 2 * m0 - m1) / h * t ^ 2 + (2 * (z0 - z1) / h + m0 + m1) / h ^ 2 * t ^ 3

/-- With the derivatives of the spline it is the spline. -/
theorem hermite_spline {x : Nat → ℝ} {n : Nat} (h : Rising x n) (y : Nat → ℝ) (f : ℝ → ℝ)
    (hf : ∀ i a, UsableCell x n i a → f a = hermite (x (i + 1) - x i) (y i) (y (i + 1)) (nodeSlope id x y n i) (nodeSlope id x y n (i + 1)) (a - x i)) :
    NaturalCubic x n y f := by
  obtain ⟨k0, k1, k2⟩ := C123_curvature (y := y) h
  refine ⟨curv id x y n, k0, k1, fun i hi => ?_, fun i a ha => ?_⟩
  · have := k2 i hi
    unfold gap at this
    rw [← this]
    ring
  · rw [hf i a ha, slope_left ha.cell, slope_right h ha.cell]
    have hp : x (i + 1) - x i ≠ 0 := (sub_pos.2 (h i ha.cell)).ne'
    unfold hermite splineDeriv
    simp only [id, gap, sub_self]
    generalize curv id x y n i = c0
    generalize curv id x y n (i + 1) = c1
    generalize a - x i = t
    generalize x (i + 1) - x i = w at *
    field_simp
    ring

/-! ### edges of cells -/

theorem cell_edges (x0 x1 y0 y1 : ℝ) (hx : x1 - x0 ≠ 0) (hy : y1 - y0 ≠ 0) (p q r s : Corner ℝ) (x y : ℝ) :
    let f := fun da db => cellPoly id da db x0 x1 y0 y1 p q r s
    (f 0 0 x y0 = hermite (x1 - x0) p.z r.z p.zx r.zx (x - x0) ∧ f 0 1 x y0 = hermite (x1 - x0) p.zy r.zy p.zxy r.zxy (x - x0)) ∧
    (f 0 0 x y1 = hermite (x1 - x0) q.z s.z q.zx s.zx (x - x0) ∧ f 0 1 x y1 = hermite (x1 - x0) q.zy s.zy q.zxy s.zxy (x - x0)) ∧
    (f 0 0 x0 y = hermite (y1 - y0) p.z q.z p.zy q.zy (y - y0) ∧ f 1 0 x0 y = hermite (y1 - y0) p.zx q.zx p.zxy q.zxy (y - y0)) ∧
    (f 0 0 x1 y = hermite (y1 - y0) r.z s.z r.zy s.zy (y - y0) ∧ f 1 0 x1 y = hermite (y1 - y0) r.zx s.zx r.zxy s.zxy (y - y0)) := by
  intro f
  refine ⟨⟨?_, ?_⟩, ⟨?_, ?_⟩, ⟨?_, ?_⟩, ⟨?_, ?_⟩⟩ <;>
  · simp only [f]
    unfold cellPoly hermite
    simp only [poly_val', poly_dx', poly_dy', coeff_sum]
    simp only [if_true, one_ne_zero, if_false, sub_self, zero_div, div_self hx, div_self hy, scale_real]
    generalize x - x0 = X
    generalize y - y0 = Y
    obtain ⟨a, ha⟩ : ∃ a, x1 - x0 = a := ⟨_, rfl⟩
    obtain ⟨b, hb⟩ : ∃ a, y1 - y0 = a := ⟨_, rfl⟩
    simp only [ha, hb] at *
    simp only [id, Nat.cast_zero, Nat.cast_one, Nat.cast_ofNat, one_pow, ne_eq, OfNat.ofNat_ne_zero, not_false_eq_true, zero_pow,
      pow_zero, pow_one, mul_one, mul_zero, zero_mul, add_zero, zero_add, one_mul, Nat.sub_self, Nat.zero_sub, Nat.reduceSub, one_ne_zero]
    try field_simp
    try ring

/-! ### the mixed derivatives -/

/-- Linear in the first `n` values. -/
def LinearIn (n : Nat) (F : (Nat → ℝ) → ℝ) : Prop := ∃ w : Nat → ℝ, ∀ y, F y = ∑ k ∈ Finset.range n, w k * y k

theorem linear_value {n k : Nat} (hk : k < n) : LinearIn n fun y => y k :=
  ⟨fun i => if i = k then 1 else 0, fun y => by simp [ite_mul, Finset.sum_ite_eq', hk]⟩

theorem linear_add {n : Nat} {F G : (Nat → ℝ) → ℝ} (hF : LinearIn n F) (hG : LinearIn n G) : LinearIn n fun y => F y + G y := by
  obtain ⟨w, hw⟩ := hF
  obtain ⟨v, hv⟩ := hG
  exact ⟨fun k => w k + v k, fun y => by simp only [hw, hv, add_mul, Finset.sum_add_distrib]⟩

theorem linear_mul {n : Nat} {F : (Nat → ℝ) → ℝ} (c : ℝ) (hF : LinearIn n F) : LinearIn n fun y => c * F y := by
  obtain ⟨w, hw⟩ := hF
  exact ⟨fun k => c * w k, fun y => by simp only [hw, Finset.mul_sum, mul_assoc]⟩

theorem linear_congr {n : Nat} {F G : (Nat → ℝ) → ℝ} (hF : LinearIn n F) (h : ∀ y, G y = F y) : LinearIn n G := by
  obtain ⟨w, hw⟩ := hF
  exact ⟨w, fun y => by rw [h, hw]⟩

theorem linear_sub {n : Nat} {F G : (Nat → ℝ) → ℝ} (hF : LinearIn n F) (hG : LinearIn n G) : LinearIn n fun y => F y - G y :=
  linear_congr (linear_add hF (linear_mul (-1) hG)) fun y => by ring

theorem linear_div {n : Nat} {F : (Nat → ℝ) → ℝ} (c : ℝ) (hF : LinearIn n F) : LinearIn n fun y => F y / c :=
  linear_congr (linear_mul c⁻¹ hF) fun y => by rw [div_eq_inv_mul]

theorem linear_zero (n : Nat) : LinearIn n fun _ => 0 := ⟨fun _ => 0, fun y => by simp⟩

theorem linear_rhs (x : Nat → ℝ) {n i : Nat} (hi : i + 2 < n) : LinearIn n fun y => rhs id x y i :=
  linear_congr (linear_mul 3 (linear_sub (linear_mul (recip (gap x (i + 1))) (linear_sub (linear_value hi) (linear_value (k := i + 1) (by omega))))
    (linear_mul (recip (gap x i)) (linear_sub (linear_value (k := i + 1) (by omega)) (linear_value (k := i) (by omega)))))) fun y => by
      simp only [rhs, id]; ring

theorem linear_forward (x : Nat → ℝ) {n : Nat} : ∀ {i : Nat}, i + 2 < n → LinearIn n fun y => forward id x y i
  | 0, hi => linear_rhs x hi
  | i + 1, hi => linear_sub (linear_rhs x hi) (linear_mul _ (linear_forward x (i := i) (by omega)))

theorem linear_backward (x : Nat → ℝ) {n : Nat} (hn : 2 < n) : ∀ k : Nat, LinearIn n fun y => backward id x y (n - 2) k
  | 0 => linear_div _ (linear_forward x (by omega))
  | k + 1 => linear_sub (linear_div _ (linear_forward x (by omega))) (linear_mul _ (linear_backward x hn k))

theorem linear_curv (x : Nat → ℝ) {n : Nat} (hn : 2 ≤ n) (i : Nat) (hi : i < n) : LinearIn n fun y => curv id x y n i := by
  by_cases h : i = 0 ∨ i + 1 = n
  · exact linear_congr (linear_zero n) fun y => by rw [curv, if_pos h]; rfl
  · exact linear_congr (linear_backward x (by omega) (n - 2 - i)) fun y => by rw [curv, if_neg h]

theorem linear_slope (x : Nat → ℝ) {n : Nat} (hn : 2 ≤ n) (i : Nat) : LinearIn n fun y => nodeSlope id x y n i := by
  obtain ⟨k, hk, e⟩ : ∃ k, k + 1 < n ∧ (if i + 1 < n then i else n - 2) = k := ⟨_, by split_ifs <;> omega, rfl⟩
  have c0 := linear_curv x hn k (by omega)
  have c1 := linear_curv x hn (k + 1) hk
  have v0 : LinearIn n fun y => y k := linear_value (by omega)
  have v1 : LinearIn n fun y => y (k + 1) := linear_value hk
  refine linear_congr (linear_add (linear_sub (linear_div (gap x k) (linear_sub v1 v0)) (linear_mul (gap x k / 3) (linear_add c1 (linear_mul 2 c0))))
    (linear_add (linear_mul (2 * (x i - x k)) c0) (linear_mul (3 * (x i - x k) ^ 2 / (3 * gap x k)) (linear_sub c1 c0)))) fun y => ?_
  simp only [nodeSlope, e, splineDeriv, id]
  ring

/-- Rows first or columns first. -/
theorem C123_mixed (x y : Nat → ℝ) {nx ny : Nat} (hx : 2 ≤ nx) (hy : 2 ≤ ny) (v : Nat → Nat → ℝ) (i j : Nat) :
    nodeSlope id x (fun i => nodeSlope id y (fun j => v i j) ny j) nx i = nodeSlope id y (fun j => nodeSlope id x (fun i => v i j) nx i) ny j := by
  obtain ⟨w, hw⟩ := linear_slope x hx i
  obtain ⟨u, hu⟩ := linear_slope y hy j
  simp only at hw hu
  rw [hw, hu]
  simp only [hw, hu, Finset.mul_sum]
  rw [Finset.sum_comm]
  exact Finset.sum_congr rfl fun a _ => Finset.sum_congr rfl fun b _ => by ring

/-! ### lines of the grid -/

/-- C123: along a row of the grid the interpolation is the natural cubic spline through the stored values, and its vertical derivative that through
the vertical derivatives at the nodes. -/
theorem C123_row (R Z V : List ℝ) (hR : 2 ≤ R.length) (hZ : 2 ≤ Z.length) (iR : R.Pairwise (· < ·)) (iZ : Z.Pairwise (· < ·)) (j : Nat) (z : ℝ)
    (hz : Z[j]? = some z) :
    NaturalCubic (fun i => R.getD i 0) R.length (fun i => V.getD (j * R.length + i) 0) (fun r => (bicubic R Z V).val r z) ∧
    NaturalCubic (fun i => R.getD i 0) R.length (fun i => (bicubic R Z V).dz (R.getD i 0) z) (fun r => (bicubic R Z V).dz r z) := by
  have rx : Rising (fun i => R.getD i 0) R.length := getD_rising iR
  have ry : Rising (fun i => Z.getD i 0) Z.length := getD_rising iZ
  obtain ⟨hj, hz'⟩ := List.getElem?_eq_some_iff.1 hz
  have hzd : z = Z.getD j 0 := by rw [List.getD_eq_getElem?_getD, hz]; rfl
  have key : ∀ i a, UsableCell (fun i => R.getD i 0) R.length i a →
      let k := fun i => cornerAt id (fun i => R.getD i 0) (fun j => Z.getD j 0) R.length Z.length (fun k => V.getD k 0) i j
      (bicubic R Z V).val a z = hermite (R.getD (i + 1) 0 - R.getD i 0) (k i).z (k (i + 1)).z (k i).zx (k (i + 1)).zx (a - R.getD i 0) ∧
      (bicubic R Z V).dz a z = hermite (R.getD (i + 1) 0 - R.getD i 0) (k i).zy (k (i + 1)).zy (k i).zxy (k (i + 1)).zxy (a - R.getD i 0) := by
    intro i a fi k
    rw [hzd]
    rcases node_fits ry hZ hj with fj | ⟨j, rfl, fj⟩
    · obtain ⟨e0, -, e2⟩ := bicubic_val R Z V hR hZ iR iZ _ _ _ _ fi fj
      have := cell_edges _ _ _ _ (gap_pos rx fi.cell).ne' (gap_pos ry fj.cell).ne' (k i)
        (cornerAt id (fun i => R.getD i 0) (fun j => Z.getD j 0) R.length Z.length (fun k => V.getD k 0) i (j + 1)) (k (i + 1))
        (cornerAt id (fun i => R.getD i 0) (fun j => Z.getD j 0) R.length Z.length (fun k => V.getD k 0) (i + 1) (j + 1)) a 0
      exact ⟨e0.trans this.1.1, e2.trans this.1.2⟩
    · obtain ⟨e0, -, e2⟩ := bicubic_val R Z V hR hZ iR iZ _ _ _ _ fi fj
      have := cell_edges _ _ _ _ (gap_pos rx fi.cell).ne' (gap_pos ry fj.cell).ne'
        (cornerAt id (fun i => R.getD i 0) (fun j => Z.getD j 0) R.length Z.length (fun k => V.getD k 0) i j) (k i)
        (cornerAt id (fun i => R.getD i 0) (fun j => Z.getD j 0) R.length Z.length (fun k => V.getD k 0) (i + 1) j) (k (i + 1)) a 0
      exact ⟨e0.trans this.2.1.1, e2.trans this.2.1.2⟩
  refine ⟨hermite_spline rx _ _ fun i a fi => (key i a fi).1, ?_⟩
  have hslopes : ∀ i, i < R.length → (bicubic R Z V).dz (R.getD i 0) z =
      nodeSlope id (fun j => Z.getD j 0) (fun j => V.getD (j * R.length + i) 0) Z.length j := by
    intro i hi
    rw [hzd]
    exact (C123_nodes R Z V hR hZ iR iZ i j hi hj).2.2
  have ns := hermite_spline rx (fun i => nodeSlope id (fun j => Z.getD j 0) (fun j => V.getD (j * R.length + i) 0) Z.length j)
    (fun r => (bicubic R Z V).dz r z) fun i a fi => (key i a fi).2
  exact natural_congr ns hslopes

/-- C123: the same for columns. -/
theorem C123_column (R Z V : List ℝ) (hR : 2 ≤ R.length) (hZ : 2 ≤ Z.length) (iR : R.Pairwise (· < ·)) (iZ : Z.Pairwise (· < ·)) (i : Nat) (r : ℝ)
    (hr : R[i]? = some r) :
    NaturalCubic (fun j => Z.getD j 0) Z.length (fun j => V.getD (j * R.length + i) 0) (fun z => (bicubic R Z V).val r z) ∧
    NaturalCubic (fun j => Z.getD j 0) Z.length (fun j => (bicubic R Z V).dr r (Z.getD j 0)) (fun z => (bicubic R Z V).dr r z) := by
  have rx : Rising (fun i => R.getD i 0) R.length := getD_rising iR
  have ry : Rising (fun i => Z.getD i 0) Z.length := getD_rising iZ
  obtain ⟨hi, hr'⟩ := List.getElem?_eq_some_iff.1 hr
  have hrd : r = R.getD i 0 := by rw [List.getD_eq_getElem?_getD, hr]; rfl
  have key : ∀ j a, UsableCell (fun j => Z.getD j 0) Z.length j a →
      let k := fun j => cornerAt id (fun i => R.getD i 0) (fun j => Z.getD j 0) R.length Z.length (fun k => V.getD k 0) i j
      (bicubic R Z V).val r a = hermite (Z.getD (j + 1) 0 - Z.getD j 0) (k j).z (k (j + 1)).z (k j).zy (k (j + 1)).zy (a - Z.getD j 0) ∧
      (bicubic R Z V).dr r a = hermite (Z.getD (j + 1) 0 - Z.getD j 0) (k j).zx (k (j + 1)).zx (k j).zxy (k (j + 1)).zxy (a - Z.getD j 0) := by
    intro j a fj k
    rw [hrd]
    rcases node_fits rx hR hi with fi | ⟨i, rfl, fi⟩
    · obtain ⟨e0, e1, -⟩ := bicubic_val R Z V hR hZ iR iZ _ _ _ _ fi fj
      have := cell_edges _ _ _ _ (gap_pos rx fi.cell).ne' (gap_pos ry fj.cell).ne' (k j) (k (j + 1))
        (cornerAt id (fun i => R.getD i 0) (fun j => Z.getD j 0) R.length Z.length (fun k => V.getD k 0) (i + 1) j)
        (cornerAt id (fun i => R.getD i 0) (fun j => Z.getD j 0) R.length Z.length (fun k => V.getD k 0) (i + 1) (j + 1)) 0 a
      exact ⟨e0.trans this.2.2.1.1, e1.trans this.2.2.1.2⟩
    · obtain ⟨e0, e1, -⟩ := bicubic_val R Z V hR hZ iR iZ _ _ _ _ fi fj
      have := cell_edges _ _ _ _ (gap_pos rx fi.cell).ne' (gap_pos ry fj.cell).ne'
        (cornerAt id (fun i => R.getD i 0) (fun j => Z.getD j 0) R.length Z.length (fun k => V.getD k 0) i j)
        (cornerAt id (fun i => R.getD i 0) (fun j => Z.getD j 0) R.length Z.length (fun k => V.getD k 0) i (j + 1)) (k j) (k (j + 1)) 0 a
      exact ⟨e0.trans this.2.2.2.1, e1.trans this.2.2.2.2⟩
  refine ⟨hermite_spline ry _ _ fun j a fj => (key j a fj).1, ?_⟩
  have hslopes : ∀ j, j < Z.length → (bicubic R Z V).dr r (Z.getD j 0) =
      nodeSlope id (fun i => R.getD i 0) (fun i => V.getD (j * R.length + i) 0) R.length i := by
    intro j hj
    rw [hrd]
    exact (C123_nodes R Z V hR hZ iR iZ i j hi hj).2.1
  have ns := hermite_spline ry (fun j => nodeSlope id (fun i => R.getD i 0) (fun i => V.getD (j * R.length + i) 0) R.length i)
    (fun z => (bicubic R Z V).dr r z) fun j a fj => by
      have := (key j a fj).2
      simp only [cornerAt] at this
      rw [C123_mixed _ _ hR hZ (fun i j => V.getD (j * R.length + i) 0) i j,
        C123_mixed _ _ hR hZ (fun i j => V.getD (j * R.length + i) 0) i (j + 1)] at this
      exact this
  exact natural_congr ns hslopes

/-- A row of three nodes with the values 0, 1, 0: the spline is not the broken line. -/
example : (bicubic [0, 1, 2] [0, 1] [0, 1, 0, 0, 0, 0]).val (1 / 2) 0 = 11 / 16 := by
  obtain ⟨⟨c, c0, c1, c2, c3⟩, -⟩ := C123_row [0, 1, 2] [0, 1] [0, 1, 0, 0, 0, 0] (by simp) (by simp) (by simp) (by simp) 0 0 (by simp)
  have e := c2 0 (by simp)
  have v := c3 0 (1 / 2) ⟨by simp, .inl rfl, .inr (by norm_num)⟩
  simp only [List.length_cons, List.length_nil] at c1
  norm_num at c1 e v
  rw [c0, c1] at e
  have hc : c 1 = -3 / 2 := by linarith
  rw [c0, hc] at v
  rw [v]; norm_num

end

end Softlib
