/-
C125: what the interpolation of Legendre modes reproduces.  Model: ModeModel.lean.
-/
import Verif.Dist.ModeProps

namespace Softlib

open Softlib.Magnetic Softlib.Dist

noncomputable section

/-- Values of the parabola `p + q x + r x²`. -/
def OnParabola (p q r : ℝ) (x y : Nat → ℝ) (i : Nat) : Prop := y i = p + q * x i + r * x i ^ 2

/-- Slopes of a parabola at equally spaced points, including those beyond the ends. -/
theorem akimaSlope_parabola {x y : Nat → ℝ} {n : Nat} (h5 : 5 ≤ n) {x0 h p q r : ℝ} (hh : 0 < h)
    (hx : ∀ i, i < n → x i = x0 + h * i) (hy : ∀ i, i < n → OnParabola p q r x y i) (i : Nat) (hi : i ≤ n + 2) :
    akimaSlope false x y n i = q + r * (2 * x0 - 3 * h) + 2 * r * h * i := by
  have sec : ∀ k, k + 1 < n → secant x y k = q + r * (2 * x0 - 3 * h) + 2 * r * h * (k + 2) := by
    intro k hk
    have e : gap x k = h := by rw [gap, hx _ hk, hx k (by omega)]; push_cast; ring
    rw [secant, e, hy _ hk, hy k (by omega), hx _ hk, hx k (by omega)]
    push_cast
    field_simp
    ring
  rw [akimaSlope]
  rw [if_neg (by simp)]
  by_cases h0 : i = 0
  · rw [if_pos h0, sec 0 (by omega), sec 1 (by omega), h0]; push_cast; ring
  rw [if_neg h0]
  by_cases h1 : i = 1
  · rw [if_pos h1, sec 0 (by omega), sec 1 (by omega), h1]; push_cast; ring
  rw [if_neg h1]
  obtain ⟨c, rfl⟩ : ∃ c, n = c + 3 := ⟨n - 3, by omega⟩
  rw [show c + 3 - 2 = c + 1 by omega, show c + 3 - 3 = c by omega]
  by_cases h2 : i = c + 3 + 1
  · rw [if_pos h2, sec (c + 1) (by omega), sec c (by omega), h2]; push_cast; ring
  rw [if_neg h2]
  by_cases h3 : i = c + 3 + 2
  · rw [if_pos h3, sec (c + 1) (by omega), sec c (by omega), h3]; push_cast; ring
  rw [if_neg h3]
  obtain ⟨d, rfl⟩ : ∃ d, i = d + 2 := ⟨i - 2, by omega⟩
  rw [show d + 2 - 2 = d by omega, sec d (by omega)]; push_cast; ring

/-- C125: Akima's interpolation of values of a parabola at equally spaced points is that parabola, in
every interval, those at the ends included. -/
theorem C125_akima_parabola (xs ys : List ℝ) (h5 : 5 ≤ xs.length) {x0 h p q r : ℝ} (hh : 0 < h)
    (hx : ∀ i, i < xs.length → xs.getD i 0 = x0 + h * i)
    (hy : ∀ i, i < xs.length → ys.getD i 0 = p + q * xs.getD i 0 + r * xs.getD i 0 ^ 2) (a : ℝ) :
    gslMode 4 xs ys a = p + q * a + r * a ^ 2 := by
  rw [mode_akima]
  dsimp only
  have hk := (fits_cellOf xs (by omega) a).cell
  generalize cellOf xs a = k at hk
  have m := akimaSlope_parabola h5 hh hx (y := fun i => ys.getD i 0) hy
  generalize akimaSlope false (fun i => xs.getD i 0) (fun i => ys.getD i 0) xs.length = f at m
  have yk := hy k (by omega)
  have xk := hx k (by omega)
  have gk : gap (fun i => xs.getD i 0) k = h := by
    show xs.getD (k + 1) 0 - xs.getD k 0 = h
    rw [hx _ hk, xk]; push_cast; ring
  have m0 := m k (by omega)
  have m1 := m (k + 1) (by omega)
  have m2 := m (k + 2) (by omega)
  have m3 := m (k + 3) (by omega)
  have m4 := m (k + 4) (by omega)
  push_cast at m1 m2 m3 m4
  have d0 : f (k + 1) - f k = 2 * r * h := by rw [m0, m1]; ring
  have d1 : f (k + 2) - f (k + 1) = 2 * r * h := by rw [m1, m2]; ring
  have d2 : f (k + 3) - f (k + 2) = 2 * r * h := by rw [m2, m3]; ring
  have d3 : f (k + 4) - f (k + 3) = 2 * r * h := by rw [m3, m4]; ring
  have n0 : akimaNE f k = 2 * |2 * r * h| := by rw [akimaNE, d2, d0]; ring
  have n1 : akimaNE f (k + 1) = 2 * |2 * r * h| := by
    rw [akimaNE, show k + 1 + 3 = k + 4 by omega, show k + 1 + 2 = k + 3 by omega, show k + 1 + 1 = k + 2 by omega, d3, d1]
    ring
  rw [akimaAt]
  rw [akimaB, akimaNext, n0, n1, d0, d1, gk, yk, xk, m1, m2, m3]
  by_cases hr : r = 0
  · subst hr
    simp only [mul_zero, zero_mul, abs_zero, if_true]
    ring
  · have hne : |2 * r * h| ≠ 0 := abs_ne_zero.mpr (by positivity)
    have hne2 : 2 * |2 * r * h| ≠ 0 := by positivity
    have half : |2 * r * h| / (2 * |2 * r * h|) = 1 / 2 := by field_simp
    rw [if_neg hne2, if_neg hne2, if_neg hne2, if_neg hne2, half]
    field_simp
    ring

/-- C125: periodic Akima interpolation of data with the same slopes beyond both ends has the same slope at
the first and at the last node, where those slopes are not in two equal pairs. -/
theorem C125_akima_periodic (x y : Nat → ℝ) (n : Nat) (h5 : 5 ≤ n)
    (hne : |secant x y 1 - secant x y 0| + |secant x y (n - 2) - secant x y (n - 3)| ≠ 0) :
    akimaB (akimaSlope true x y n) 0 = akimaNext (akimaSlope true x y n) (n - 2) := by
  obtain ⟨c, rfl⟩ : ∃ c, n = c + 5 := ⟨n - 5, by omega⟩
  rw [show c + 5 - 2 = c + 3 by omega, show c + 5 - 3 = c + 2 by omega] at hne
  have s0 : akimaSlope true x y (c + 5) 0 = secant x y (c + 2) := by simp [akimaSlope]
  have s1 : akimaSlope true x y (c + 5) 1 = secant x y (c + 3) := by simp [akimaSlope]
  have s2 : akimaSlope true x y (c + 5) 2 = secant x y 0 := akimaSlope_inner true x y _ 0 (by omega)
  have s3 : akimaSlope true x y (c + 5) 3 = secant x y 1 := akimaSlope_inner true x y _ 1 (by omega)
  have t0 : akimaSlope true x y (c + 5) (c + 4) = secant x y (c + 2) := akimaSlope_inner true x y _ (c + 2) (by omega)
  have t1 : akimaSlope true x y (c + 5) (c + 5) = secant x y (c + 3) := akimaSlope_inner true x y _ (c + 3) (by omega)
  have t2 : akimaSlope true x y (c + 5) (c + 6) = secant x y 0 := by simp [akimaSlope]
  have t3 : akimaSlope true x y (c + 5) (c + 7) = secant x y 1 := by simp [akimaSlope]
  rw [show c + 5 - 2 = c + 3 by omega, akimaB, akimaNext, akimaNE, akimaNE]
  simp only [Nat.zero_add, show c + 3 + 1 = c + 4 by omega, show c + 4 + 3 = c + 7 by omega, show c + 4 + 2 = c + 6 by omega,
    show c + 4 + 1 = c + 5 by omega, show c + 3 + 2 = c + 5 by omega, show c + 3 + 3 = c + 6 by omega, s0, s1, s2, s3, t0, t1, t2, t3]
  rw [if_neg hne, if_neg hne]

theorem mode_akima_periodic (xs ys : List ℝ) : gslMode 5 xs ys = fun a =>
    akimaAt (akimaSlope true (fun i => xs.getD i 0) (fun i => ys.getD i 0) xs.length) (fun i => xs.getD i 0) (fun i => ys.getD i 0) (cellOf xs a) a := by
  funext a
  unfold gslMode
  simp

theorem cubic_slope (x0 y0 b c d a : ℝ) :
    HasDerivAt (fun t => y0 + (t - x0) * (b + (t - x0) * (c + d * (t - x0)))) (b + (a - x0) * (2 * c + 3 * d * (a - x0))) a := by
  have hx : HasDerivAt (fun t => t - x0) 1 a := (hasDerivAt_id a).sub_const _
  have := (hx.fun_mul ((hx.fun_mul ((hx.const_mul d).const_add c)).const_add b)).const_add y0
  exact this.congr_deriv (by ring)

/-- Slope of Akima's interpolation at the left end of an interval. -/
theorem akimaAt_left (m x y : Nat → ℝ) (k : Nat) : HasDerivAt (akimaAt m x y k) (akimaB m k) (x k) := by
  refine (cubic_slope (x k) (y k) (akimaB m k) _ _ (x k)).congr_deriv ?_
  rw [sub_self, zero_mul, add_zero]

/-- Slope of Akima's interpolation at the right end of an interval. -/
theorem akimaAt_right (m x y : Nat → ℝ) (k : Nat) (h : gap x k ≠ 0) (h1 : akimaNE m (k + 1) ≠ 0) :
    HasDerivAt (akimaAt m x y k) (akimaNext m k) (x (k + 1)) := by
  have e : x (k + 1) - x k = gap x k := rfl
  refine (cubic_slope (x k) (y k) (akimaB m k) _ _ (x (k + 1))).congr_deriv ?_
  rw [e]
  by_cases h0 : akimaNE m k = 0
  · rw [if_pos h0, if_pos h0]
    have a0 : m (k + 3) = m (k + 2) := by
      unfold akimaNE at h0
      have := abs_nonneg (m (k + 1) - m k)
      have := abs_nonneg (m (k + 3) - m (k + 2))
      exact sub_eq_zero.1 (abs_eq_zero.1 (by linarith))
    unfold akimaNext akimaB
    rw [if_neg h1, if_pos h0, a0]
    ring
  · rw [if_neg h0, if_neg h0]
    field_simp
    ring

/-- Near a point that only one interval can hold, a function given in intervals is that piece. -/
theorem piece_deriv (xs : List ℝ) (h2 : 2 ≤ xs.length) {P : Nat → ℝ → ℝ} {k : Nat} {a v : ℝ}
    (hk : ∀ j, UsableCell (fun i => xs.getD i 0) xs.length j a → j = k) (hd : HasDerivAt (P k) v a) :
    HasDerivAt (fun b => P (cellOf xs b) b) v a := by
  refine hd.congr_of_eventuallyEq ?_
  filter_upwards [fits_near (fun i => xs.getD i 0) xs.length a] with s hf
  rw [hk _ (hf _ (fits_cellOf xs h2 s))]

/-- C125: data that repeat are interpolated with the same slope at the first and at the last node by the
periodic type of Akima's, on every grid, unless the two slopes before the end and the two after the start are
equal pairs. -/
theorem C125_akima_joins (xs ys : List ℝ) (h5 : 5 ≤ xs.length) (hxs : xs.Pairwise (· < ·))
    (hne : |secant (fun i => xs.getD i 0) (fun i => ys.getD i 0) 1 - secant (fun i => xs.getD i 0) (fun i => ys.getD i 0) 0|
      + |secant (fun i => xs.getD i 0) (fun i => ys.getD i 0) (xs.length - 2)
        - secant (fun i => xs.getD i 0) (fun i => ys.getD i 0) (xs.length - 3)| ≠ 0) :
    ∃ v, HasDerivAt (gslMode 5 xs ys) v (xs.getD 0 0) ∧ HasDerivAt (gslMode 5 xs ys) v (xs.getD (xs.length - 1) 0) := by
  have hr := getD_rising hxs
  rw [mode_akima_periodic]
  refine ⟨_, piece_deriv xs (by omega) ?_ (akimaAt_left _ _ _ 0), ?_⟩
  · intro j hj
    obtain ⟨c, h0, -⟩ := hj
    rcases h0 with h0 | h0
    · exact h0
    · by_contra hj0
      exact absurd h0 (not_le.mpr (rising_le hr (by omega) (by omega)))
  · rw [C125_akima_periodic _ _ xs.length h5 hne]
    refine piece_deriv xs (by omega) (k := xs.length - 2) ?_ ?_
    · intro j hj
      obtain ⟨c, -, h0⟩ := hj
      by_contra hj0
      rcases h0 with h0 | h0
      · omega
      · exact absurd h0 (not_le.mpr (rising_le hr (by omega) (by omega)))
    · have e : xs.length - 1 = xs.length - 2 + 1 := by omega
      rw [e]
      refine akimaAt_right _ _ _ _ (gap_pos hr (by omega)).ne' ?_
      obtain ⟨c, hc⟩ : ∃ c, xs.length = c + 5 := ⟨xs.length - 5, by omega⟩
      rw [hc] at hne ⊢
      generalize (fun i => xs.getD i 0) = x at *
      generalize (fun i => ys.getD i 0) = y at *
      have t0 : akimaSlope true x y (c + 5) (c + 4) = secant x y (c + 2) := akimaSlope_inner true x y _ (c + 2) (by omega)
      have t1 : akimaSlope true x y (c + 5) (c + 5) = secant x y (c + 3) := akimaSlope_inner true x y _ (c + 3) (by omega)
      have t2 : akimaSlope true x y (c + 5) (c + 6) = secant x y 0 := by simp [akimaSlope]
      have t3 : akimaSlope true x y (c + 5) (c + 7) = secant x y 1 := by simp [akimaSlope]
      rw [show c + 5 - 2 + 1 = c + 4 by omega, akimaNE]
      simp only [show c + 4 + 3 = c + 7 by omega, show c + 4 + 2 = c + 6 by omega, show c + 4 + 1 = c + 5 by omega, t0, t1, t2, t3]
      rw [show c + 5 - 2 = c + 3 by omega, show c + 5 - 3 = c + 2 by omega] at hne
      exact hne

/-- Steffen's slope at an inner node of three points of a parabola, where it is not limited. -/
theorem steffenSlope_parabola {x y : Nat → ℝ} {n i : Nat} (hi : 0 < i) (hn : i + 1 < n) {p q r : ℝ}
    (g0 : 0 < gap x (i - 1)) (g1 : 0 < gap x i) (y0 : OnParabola p q r x y (i - 1)) (y1 : OnParabola p q r x y i)
    (y2 : OnParabola p q r x y (i + 1)) (hs : 0 < secant x y (i - 1) * secant x y i)
    (l0 : |q + 2 * r * x i| ≤ 2 * |secant x y (i - 1)|) (l1 : |q + 2 * r * x i| ≤ 2 * |secant x y i|) :
    steffenSlope x y n i = q + 2 * r * x i := by
  have hsum : gap x (i - 1) + gap x i ≠ 0 := by positivity
  obtain ⟨j, rfl⟩ : ∃ j, i = j + 1 := ⟨i - 1, by omega⟩
  rw [Nat.add_sub_cancel] at *
  have e0 : secant x y j = q + r * (x j + x (j + 1)) := by
    have : x (j + 1) - x j ≠ 0 := g0.ne'
    rw [secant, gap, y0, y1]; field_simp; ring
  have e1 : secant x y (j + 1) = q + r * (x (j + 1) + x (j + 2)) := by
    have : x (j + 1 + 1) - x (j + 1) ≠ 0 := g1.ne'
    rw [secant, gap, y1, y2]; field_simp; ring
  have ep : (secant x y j * gap x (j + 1) + secant x y (j + 1) * gap x j) / (gap x j + gap x (j + 1)) = q + 2 * r * x (j + 1) := by
    rw [div_eq_iff hsum, e0, e1, gap, gap]; ring
  have sgn : ∀ z : ℝ, copysign 1 z = if z < 0 then -1 else 1 := by
    intro z; rw [copysign]; congr 1; simp
  rw [steffenSlope, if_neg (by omega), if_neg (by omega)]
  dsimp only
  rw [Nat.add_sub_cancel, ep, min_eq_right (a := |secant x y (j + 1)|) (by linarith), min_eq_right (by linarith), sgn, sgn]
  have conv : q + 2 * r * x (j + 1) = (secant x y j * gap x (j + 1) + secant x y (j + 1) * gap x j) / (gap x j + gap x (j + 1)) := ep.symm
  rcases lt_or_ge (secant x y j) 0 with a | a
  · have b : secant x y (j + 1) < 0 := by
      by_contra b
      exact absurd hs (not_lt.mpr (mul_nonpos_of_nonpos_of_nonneg a.le (not_lt.mp b)))
    have neg : q + 2 * r * x (j + 1) ≤ 0 := by
      rw [conv]
      exact div_nonpos_of_nonpos_of_nonneg (by nlinarith) (by positivity)
    rw [if_pos a, if_pos b, abs_of_nonpos neg]; ring
  · have a' : 0 < secant x y j := lt_of_le_of_ne a (fun e => by rw [← e, zero_mul] at hs; exact lt_irrefl _ hs)
    have b : 0 < secant x y (j + 1) := by
      by_contra b
      exact absurd hs (not_lt.mpr (mul_nonpos_of_nonneg_of_nonpos a'.le (not_lt.mp b)))
    have pos : 0 ≤ q + 2 * r * x (j + 1) := by
      rw [conv]
      exact div_nonneg (by positivity) (by positivity)
    rw [if_neg (not_lt.mpr a), if_neg (not_lt.mpr b.le), abs_of_nonneg pos]; ring

theorem steffen_node (xs ys : List ℝ) (hxs : xs.Pairwise (· < ·)) (i : Nat) (hi : i + 1 < xs.length) :
    HasDerivAt (gslMode 6 xs ys) (steffenSlope (fun i => xs.getD i 0) (fun i => ys.getD i 0) xs.length i) (xs.getD i 0) := by
  have hr := getD_rising hxs
  have h2 : 2 ≤ xs.length := by omega
  have g : ∀ k, k + 1 < xs.length → gap (fun i => xs.getD i 0) k ≠ 0 := fun k hk => (gap_pos hr hk).ne'
  have hj : ∀ k, k + 2 < xs.length → steffenDeriv (fun i => xs.getD i 0) (fun i => ys.getD i 0) xs.length k (xs.getD (k + 1) 0) =
      steffenDeriv (fun i => xs.getD i 0) (fun i => ys.getD i 0) xs.length (k + 1) (xs.getD (k + 1) 0) := by
    intro k hk
    have gk := g k (by omega)
    unfold steffenDeriv
    dsimp only
    rw [show xs.getD (k + 1) 0 - xs.getD k 0 = gap (fun i => xs.getD i 0) k from rfl, sub_self]
    field_simp
    ring
  have main := pieces_smooth xs h2 hxs (fun k a _ => steffenAt_deriv (fun i => xs.getD i 0) (fun i => ys.getD i 0) xs.length k a)
    (fun k hk => ((steffenAt_ends (fun i => xs.getD i 0) (fun i => ys.getD i 0) xs.length k (g k (by omega))).2.trans
      (steffenAt_ends (fun i => xs.getD i 0) (fun i => ys.getD i 0) xs.length (k + 1) (g _ (by omega))).1.symm)) hj (xs.getD i 0)
  rw [mode_steffen]
  have u : UsableCell (fun i => xs.getD i 0) xs.length i (xs.getD i 0) :=
    ⟨hi, Or.inr (le_refl _), Or.inr (hr i hi).le⟩
  rw [pieces_same (P := steffenDeriv (fun i => xs.getD i 0) (fun i => ys.getD i 0) xs.length) hr hj
    (fits_cellOf xs h2 (xs.getD i 0)) u] at main
  have e : steffenDeriv (fun i => xs.getD i 0) (fun i => ys.getD i 0) xs.length i (xs.getD i 0) =
      steffenSlope (fun i => xs.getD i 0) (fun i => ys.getD i 0) xs.length i := by
    unfold steffenDeriv
    dsimp only
    rw [sub_self, zero_mul, add_zero]
  rw [e] at main
  exact main

/-- C125: Steffen's interpolation has the slope of the parabola through a node and its neighbours, on
every grid, where the two secants have the same sign and are at least half as steep. -/
theorem C125_steffen_parabola (xs ys : List ℝ) (hxs : xs.Pairwise (· < ·)) (i : Nat) (hi : i + 2 < xs.length) {p q r : ℝ}
    (hy : ∀ j, i ≤ j → j ≤ i + 2 → ys.getD j 0 = p + q * xs.getD j 0 + r * xs.getD j 0 ^ 2)
    (hs : 0 < (ys.getD (i + 1) 0 - ys.getD i 0) * (ys.getD (i + 2) 0 - ys.getD (i + 1) 0))
    (l0 : |q + 2 * r * xs.getD (i + 1) 0| ≤ 2 * |(ys.getD (i + 1) 0 - ys.getD i 0) / (xs.getD (i + 1) 0 - xs.getD i 0)|)
    (l1 : |q + 2 * r * xs.getD (i + 1) 0| ≤ 2 * |(ys.getD (i + 2) 0 - ys.getD (i + 1) 0) / (xs.getD (i + 2) 0 - xs.getD (i + 1) 0)|) :
    HasDerivAt (gslMode 6 xs ys) (q + 2 * r * xs.getD (i + 1) 0) (xs.getD (i + 1) 0) := by
  have hr := getD_rising hxs
  have g0 := gap_pos hr (i := i) (by omega)
  have g1 := gap_pos hr (i := i + 1) (by omega)
  have main := steffen_node xs ys hxs (i + 1) (by omega)
  have e := steffenSlope_parabola (x := fun i => xs.getD i 0) (y := fun i => ys.getD i 0) (n := xs.length) (i := i + 1)
    (p := p) (q := q) (r := r) (by omega) (by omega) g0 g1 (hy i (by omega) (by omega))
    (hy (i + 1) (by omega) (by omega)) (hy (i + 2) (by omega) (by omega)) ?_ l0 l1
  · rw [e] at main; exact main
  · show 0 < (ys.getD (i + 1) 0 - ys.getD i 0) / gap (fun i => xs.getD i 0) i *
      ((ys.getD (i + 2) 0 - ys.getD (i + 1) 0) / gap (fun i => xs.getD i 0) (i + 1))
    rw [div_mul_div_comm]
    exact div_pos hs (mul_pos g0 g1)

/-- C125: at the first node it has the slope of the first interval. -/
theorem C125_steffen_first (xs ys : List ℝ) (h2 : 2 ≤ xs.length) (hxs : xs.Pairwise (· < ·)) :
    HasDerivAt (gslMode 6 xs ys) ((ys.getD 1 0 - ys.getD 0 0) / (xs.getD 1 0 - xs.getD 0 0)) (xs.getD 0 0) := by
  have := steffen_node xs ys hxs 0 (by omega)
  rw [steffenSlope, if_pos rfl] at this
  exact this

/-- The hypotheses can be met: squares. -/
example : HasDerivAt (gslMode 6 [1, 2, 3] [1, 4, 9]) 4 2 := by
  have := C125_steffen_parabola [1, 2, 3] [1, 4, 9] (by norm_num) 0 (by norm_num) (p := 0) (q := 0) (r := 1)
    (by
      intro j _ h
      have : j = 0 ∨ j = 1 ∨ j = 2 := by omega
      rcases this with rfl | rfl | rfl <;> norm_num) (by norm_num) (by norm_num) (by norm_num)
  norm_num at this
  exact this

example : gslMode 4 [0, 1, 2, 3, 4] [0, 1, 4, 9, 16] (1 / 2) = 1 / 4 := by
  rw [C125_akima_parabola [0, 1, 2, 3, 4] [0, 1, 4, 9, 16] (by norm_num) (x0 := 0) (h := 1) (p := 0) (q := 0) (r := 1) (by norm_num)
    (by
      intro i hi
      have : i = 0 ∨ i = 1 ∨ i = 2 ∨ i = 3 ∨ i = 4 := by simp at hi; omega
      rcases this with rfl | rfl | rfl | rfl | rfl <;> norm_num)
    (by
      intro i hi
      have : i = 0 ∨ i = 1 ∨ i = 2 ∨ i = 3 ∨ i = 4 := by simp at hi; omega
      rcases this with rfl | rfl | rfl | rfl | rfl <;> norm_num)]
  norm_num

end

/-- So can those of the periodic one. -/
example : ∃ v, HasDerivAt (gslMode 5 [0, 1, 2, 3, 4] [0, 1, 0, -1, 0]) v 0 ∧ HasDerivAt (gslMode 5 [0, 1, 2, 3, 4] [0, 1, 0, -1, 0]) v 4 := by
  have := C125_akima_joins [0, 1, 2, 3, 4] [0, 1, 0, -1, 0] (by simp) (by norm_num) (by norm_num [secant, gap])
  simpa using this

end Softlib
