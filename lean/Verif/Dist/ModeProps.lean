/-
C125: interpolation of the Legendre modes of CODE distributions.  Model: ModeModel.lean.
-/
import Verif.Dist.ModeModel
import Verif.Dist.CubicProps
import Verif.Dist.CodeFileProps
import Mathlib.Analysis.Calculus.Deriv.Abs

namespace Softlib

open Softlib.Magnetic Softlib.Dist

noncomputable section

/-! ### functions given in intervals -/

/-- Whichever usable interval is taken. -/
theorem pieces_same {x : Nat → ℝ} {n : Nat} (h : Rising x n) {P : Nat → ℝ → ℝ} (hj : ∀ k, k + 2 < n → P k (x (k + 1)) = P (k + 1) (x (k + 1)))
    {i k : Nat} {a : ℝ} (hi : UsableCell x n i a) (hk : UsableCell x n k a) : P i a = P k a := by
  rcases Nat.lt_trichotomy i k with hlt | rfl | hlt
  · obtain ⟨rfl, rfl⟩ := fits_two h hi hk hlt
    exact hj i (by have := hk.cell; omega)
  · rfl
  · obtain ⟨rfl, rfl⟩ := fits_two h hk hi hlt
    exact (hj k (by have := hi.cell; omega)).symm

/-- A function given in intervals is differentiable where values and slopes agree at the common nodes. -/
theorem pieces_smooth (xs : List ℝ) (h2 : 2 ≤ xs.length) (hxs : xs.Pairwise (· < ·)) {P P' : Nat → ℝ → ℝ}
    (hd : ∀ k a, k + 1 < xs.length → HasDerivAt (P k) (P' k a) a)
    (hj : ∀ k, k + 2 < xs.length → P k (xs.getD (k + 1) 0) = P (k + 1) (xs.getD (k + 1) 0))
    (hj' : ∀ k, k + 2 < xs.length → P' k (xs.getD (k + 1) 0) = P' (k + 1) (xs.getD (k + 1) 0)) (a : ℝ) :
    HasDerivAt (fun b => P (cellOf xs b) b) (P' (cellOf xs a) a) a := by
  have hr := getD_rising hxs
  have fa := fits_cellOf xs h2 a
  rw [hasDerivAt_iff_isLittleO, Asymptotics.isLittleO_iff]
  intro ε hε
  have near : ∀ᶠ s in nhds a, ∀ k ∈ Finset.range xs.length, UsableCell (fun i => xs.getD i 0) xs.length k a →
      ‖P k s - P (cellOf xs a) a - (s - a) • P' (cellOf xs a) a‖ ≤ ε * ‖s - a‖ := by
    rw [Finset.eventually_all]
    intro k _
    by_cases hk : UsableCell (fun i => xs.getD i 0) xs.length k a
    · have hda := hd k a hk.cell
      rw [hasDerivAt_iff_isLittleO, Asymptotics.isLittleO_iff] at hda
      rw [pieces_same hr hj fa hk, pieces_same hr hj' fa hk]
      filter_upwards [hda hε] with s hs _
      exact hs
    · exact Filter.Eventually.of_forall fun _ h => absurd h hk
  filter_upwards [near, fits_near (fun i => xs.getD i 0) xs.length a] with s hs hf
  have fs := fits_cellOf xs h2 s
  exact hs _ (by have := fs.cell; simp only [Finset.mem_range]; omega) (hf _ fs)

theorem pieces_continuous (xs : List ℝ) (h2 : 2 ≤ xs.length) (hxs : xs.Pairwise (· < ·)) {P : Nat → ℝ → ℝ} (hc : ∀ k, Continuous (P k))
    (hj : ∀ k, k + 2 < xs.length → P k (xs.getD (k + 1) 0) = P (k + 1) (xs.getD (k + 1) 0)) : Continuous fun b => P (cellOf xs b) b := by
  have hr := getD_rising hxs
  rw [continuous_iff_continuousAt]
  intro a
  have fa := fits_cellOf xs h2 a
  rw [Metric.continuousAt_iff']
  intro ε hε
  have near : ∀ᶠ s in nhds a, ∀ k ∈ Finset.range xs.length, UsableCell (fun i => xs.getD i 0) xs.length k a →
      dist (P k s) (P (cellOf xs a) a) < ε := by
    rw [Finset.eventually_all]
    intro k _
    by_cases hk : UsableCell (fun i => xs.getD i 0) xs.length k a
    · rw [pieces_same hr hj fa hk]
      filter_upwards [Metric.continuousAt_iff'.1 (hc k).continuousAt ε hε] with s hs _
      exact hs
    · exact Filter.Eventually.of_forall fun _ h => absurd h hk
  filter_upwards [near, fits_near (fun i => xs.getD i 0) xs.length a] with s hs hf
  have fs := fits_cellOf xs h2 s
  exact hs _ (by have := fs.cell; simp only [Finset.mem_range]; omega) (hf _ fs)

/-- The value at a node is the stored one if the intervals have the stored values at both ends. -/
theorem pieces_node (xs : List ℝ) (h2 : 2 ≤ xs.length) (hxs : xs.Pairwise (· < ·)) {P : Nat → ℝ → ℝ} {y : Nat → ℝ}
    (hl : ∀ k, k + 1 < xs.length → P k (xs.getD k 0) = y k) (hr : ∀ k, k + 1 < xs.length → P k (xs.getD (k + 1) 0) = y (k + 1))
    {j : Nat} {a : ℝ} (ha : xs[j]? = some a) : P (cellOf xs a) a = y j := by
  have hc := C123_interval xs h2 hxs j a ha
  have lj := (List.getElem?_eq_some_iff.1 ha).1
  have hv : xs.getD j 0 = a := by rw [List.getD_eq_getElem?_getD, ha]; rfl
  rw [hc]
  split_ifs with hlt
  · rw [← hv]; exact hl j hlt
  · obtain ⟨i, rfl⟩ : ∃ i, j = i + 1 := ⟨j - 1, by omega⟩
    rw [show xs.length - 2 = i by omega, ← hv]
    exact hr i (by omega)

/-! ### polynomial -/

theorem newton_mul (x y : Nat → ℝ) (i j : Nat) (hne : x j ≠ x (i + 1 + j)) :
    newtonDiff x y (i + 1) (i + 1 + j) * (x (i + 1 + j) - x j) = newtonDiff x y i (i + 1 + j) - newtonDiff x y i (i + j) := by
  rw [newtonDiff, show i + 1 + j - 1 = i + j by omega, show i + 1 + j - (i + 1) = j by omega, div_mul_cancel₀ _ (sub_ne_zero.2 hne.symm)]

/-- Divided differences of a constant and a product with a linear factor. -/
theorem newton_product (x g y : Nat → ℝ) (c e : ℝ) (n : Nat) (hx : ∀ i j, i < j → j < n → x i ≠ x j)
    (hy : ∀ k, k < n → y k = e + (x k - c) * g k) (i j : Nat) (hj : i + 1 + j < n) :
    newtonDiff x y (i + 1) (i + 1 + j) = (x j - c) * newtonDiff x g (i + 1) (i + 1 + j) + newtonDiff x g i (i + 1 + j) := by
  induction i generalizing j with
  | zero =>
    have h1 : 0 + 1 + j - 1 = j := by omega
    have hne : x (0 + 1 + j) - x j ≠ 0 := sub_ne_zero.2 (hx j (0 + 1 + j) (by omega) hj).symm
    simp only [newtonDiff, h1, Nat.zero_add] at hne ⊢
    rw [hy j (by omega), hy (1 + j) (by omega)]
    field_simp
    ring
  | succ i ih =>
    have h1 : i + 1 + 1 + j = i + 1 + (j + 1) := by omega
    have a1 := ih (j + 1) (by omega)
    have a2 := ih j (by omega)
    have ne := hx j (i + 1 + 1 + j) (by omega) hj
    have m1 := newton_mul x y (i + 1) j ne
    have m2 := newton_mul x g (i + 1) j ne
    have m3 := newton_mul x g i (j + 1) (hx _ _ (by omega) (by omega))
    rw [← h1] at a1 m3
    rw [show i + (j + 1) = i + 1 + j by omega] at m3
    rw [a1, a2] at m1
    refine mul_right_cancel₀ (sub_ne_zero.2 ne.symm) ?_
    rw [m1]
    linear_combination -m3 - (x j - c) * m2

theorem newton_shift (x y : Nat → ℝ) (i j : Nat) (h : i ≤ j) :
    newtonDiff x y i (j + 1) = newtonDiff (fun k => x (k + 1)) (fun k => y (k + 1)) i j := by
  induction i generalizing j with
  | zero => rfl
  | succ i ih =>
    obtain ⟨j, rfl⟩ : ∃ l, j = l + 1 := ⟨j - 1, by omega⟩
    rw [newtonDiff, newtonDiff, ih (j + 1) (by omega), show j + 1 + 1 - 1 = j + 1 by omega, ih j (by omega), show j + 1 - 1 = j by omega,
      show j + 1 + 1 - (i + 1) = j + 1 - (i + 1) + 1 by omega]

/-- Without the first point. -/
theorem polynomial_step (x y : Nat → ℝ) (n : Nat) (hx : ∀ i j, i < j → j < n + 2 → x i ≠ x j) (a : ℝ) :
    polynomialAt x y (n + 2) a = y 0 + (a - x 0) * polynomialAt (fun k => x (k + 1)) (fun k => (y (k + 1) - y 0) / (x (k + 1) - x 0)) (n + 1) a := by
  have hc : ∀ i, i ≤ n → newtonDiff x y (i + 1) (i + 1) =
      newtonDiff (fun k => x (k + 1)) (fun k => (y (k + 1) - y 0) / (x (k + 1) - x 0)) i i := by
    intro i hi
    have := newton_product x (fun k => (y k - y 0) / (x k - x 0)) y (x 0) (y 0) (n + 2) hx (fun k hk => ?_) i 0 (by omega)
    · rw [Nat.add_zero, sub_self, zero_mul, zero_add] at this
      rw [this, newton_shift x _ i i (le_refl _)]
    · rcases Nat.eq_zero_or_pos k with rfl | h0
      · ring
      · have := sub_ne_zero.2 (hx 0 k h0 hk).symm
        field_simp
        ring
  have hh : ∀ k, k ≤ n → newtonHorner x y (n + 1) a k =
      newtonHorner (fun k => x (k + 1)) (fun k => (y (k + 1) - y 0) / (x (k + 1) - x 0)) n a k := by
    intro k
    induction k with
    | zero => intro _; exact hc n (le_refl _)
    | succ k ih =>
      intro hk
      rw [newtonHorner, newtonHorner, ih (by omega), show n + 1 - 1 - k = n - 1 - k + 1 by omega, hc _ (by omega)]
  unfold polynomialAt
  rw [show n + 2 - 1 = n + 1 by omega, show n + 1 - 1 = n by omega, newtonHorner, hh n (le_refl _), show n + 1 - 1 - n = 0 by omega]
  rfl

/-- The interpolating polynomial has the stored values. -/
theorem polynomial_node (n : Nat) : ∀ (x y : Nat → ℝ), (∀ i j, i < j → j < n + 1 → x i ≠ x j) → ∀ k, k < n + 1 → polynomialAt x y (n + 1) (x k) = y k := by
  induction n with
  | zero =>
    intro x y _ k hk
    obtain rfl : k = 0 := by omega
    rfl
  | succ n ih =>
    intro x y hx k hk
    rw [polynomial_step x y n hx]
    rcases Nat.eq_zero_or_pos k with rfl | h0
    · ring
    · obtain ⟨k, rfl⟩ : ∃ l, k = l + 1 := ⟨k - 1, by omega⟩
      have hne := sub_ne_zero.2 (hx 0 (k + 1) (by omega) hk).symm
      have := ih (fun k => x (k + 1)) (fun k => (y (k + 1) - y 0) / (x (k + 1) - x 0)) (fun i j hij hj => hx _ _ (by omega) (by omega)) k (by omega)
      rw [this]
      field_simp
      ring

/-! ### the stored values -/

theorem splineAt_ends (x y cv : Nat → ℝ) (k : Nat) (h : gap x k ≠ 0) :
    splineAt x y cv k (x k) = y k ∧ splineAt x y cv k (x (k + 1)) = y (k + 1) := by
  unfold splineAt
  have e : x (k + 1) - x k = gap x k := rfl
  constructor
  · simp
  · simp only [e]
    field_simp
    ring

theorem akimaAt_ends (m x y : Nat → ℝ) (k : Nat) (h : gap x k ≠ 0) (hm : m (k + 2) = secant x y k) :
    akimaAt m x y k (x k) = y k ∧ akimaAt m x y k (x (k + 1)) = y (k + 1) := by
  unfold akimaAt
  have e : x (k + 1) - x k = gap x k := rfl
  have hs : y (k + 1) = y k + gap x k * m (k + 2) := by rw [hm]; unfold secant; field_simp; ring
  constructor
  · simp
  · simp only [e]
    by_cases h0 : akimaNE m k = 0
    · simp only [h0, if_true, akimaB]
      rw [hs]
      ring
    · simp only [if_neg h0]
      rw [hs]
      field_simp
      ring

theorem steffenAt_ends (x y : Nat → ℝ) (n k : Nat) (h : gap x k ≠ 0) :
    steffenAt x y n k (x k) = y k ∧ steffenAt x y n k (x (k + 1)) = y (k + 1) := by
  unfold steffenAt
  have e : x (k + 1) - x k = gap x k := rfl
  have hs : y (k + 1) = y k + gap x k * secant x y k := by unfold secant; field_simp; ring
  constructor
  · simp
  · simp only [e]
    rw [hs]
    field_simp
    ring

theorem akimaSlope_inner (b : Bool) (x y : Nat → ℝ) (n k : Nat) (h : k + 1 < n) : akimaSlope b x y n (k + 2) = secant x y k := by
  unfold akimaSlope
  simp only
  split_ifs <;> first | contradiction | omega | rfl

/-- C125: whatever the type of interpolation, the stored values are reproduced. -/
theorem C125_nodes (itype : Int) (xs ys : List ℝ) (h2 : 2 ≤ xs.length) (hxs : xs.Pairwise (· < ·)) (j : Nat) (a v : ℝ)
    (ha : xs[j]? = some a) (hv : ys[j]? = some v) : gslMode itype xs ys a = v := by
  have hr := getD_rising hxs
  have lj := (List.getElem?_eq_some_iff.1 ha).1
  have hy : ys.getD j 0 = v := by rw [List.getD_eq_getElem?_getD, hv]; rfl
  have hx : xs.getD j 0 = a := by rw [List.getD_eq_getElem?_getD, ha]; rfl
  have g : ∀ k, k + 1 < xs.length → gap (fun i => xs.getD i 0) k ≠ 0 := fun k hk => (gap_pos hr hk).ne'
  rw [← hy]
  unfold gslMode
  simp only
  split_ifs
  · obtain ⟨n, hn⟩ : ∃ n, xs.length = n + 1 := ⟨xs.length - 1, by omega⟩
    rw [hn, ← hx]
    exact polynomial_node n _ _ (fun i j hij hj => (rising_le hr hij (by omega)).ne) j (by omega)
  · exact pieces_node xs h2 hxs (y := fun i => ys.getD i 0) (fun k hk => (splineAt_ends _ _ _ k (g k hk)).1) (fun k hk => (splineAt_ends _ _ _ k (g k hk)).2) ha
  · exact pieces_node xs h2 hxs (y := fun i => ys.getD i 0) (fun k hk => (splineAt_ends _ _ _ k (g k hk)).1) (fun k hk => (splineAt_ends _ _ _ k (g k hk)).2) ha
  · exact pieces_node xs h2 hxs (y := fun i => ys.getD i 0) (fun k hk => (akimaAt_ends _ _ _ k (g k hk) (akimaSlope_inner _ _ _ _ _ hk)).1)
      (fun k hk => (akimaAt_ends _ _ _ k (g k hk) (akimaSlope_inner _ _ _ _ _ hk)).2) ha
  · exact pieces_node xs h2 hxs (y := fun i => ys.getD i 0) (fun k hk => (akimaAt_ends _ _ _ k (g k hk) (akimaSlope_inner _ _ _ _ _ hk)).1)
      (fun k hk => (akimaAt_ends _ _ _ k (g k hk) (akimaSlope_inner _ _ _ _ _ hk)).2) ha
  · exact pieces_node xs h2 hxs (y := fun i => ys.getD i 0) (fun k hk => (steffenAt_ends _ _ _ k (g k hk)).1) (fun k hk => (steffenAt_ends _ _ _ k (g k hk)).2) ha

theorem mode_polynomial (xs ys : List ℝ) :
    gslMode 1 xs ys = polynomialAt (fun i => xs.getD i 0) (fun i => ys.getD i 0) xs.length := rfl

theorem mode_spline (xs ys : List ℝ) : gslMode 2 xs ys = fun a =>
    splineAt (fun i => xs.getD i 0) (fun i => ys.getD i 0) (curv id (fun i => xs.getD i 0) (fun i => ys.getD i 0) xs.length) (cellOf xs a) a := by
  funext a
  unfold gslMode
  simp

theorem mode_akima (xs ys : List ℝ) : gslMode 4 xs ys = fun a =>
    akimaAt (akimaSlope false (fun i => xs.getD i 0) (fun i => ys.getD i 0) xs.length) (fun i => xs.getD i 0) (fun i => ys.getD i 0) (cellOf xs a) a := by
  funext a
  unfold gslMode
  simp

theorem mode_steffen (xs ys : List ℝ) : gslMode 6 xs ys = fun a =>
    steffenAt (fun i => xs.getD i 0) (fun i => ys.getD i 0) xs.length (cellOf xs a) a := by
  funext a
  unfold gslMode
  simp

/-! ### smooth types -/

theorem splineAt_deriv (x y : Nat → ℝ) (n k : Nat) (a : ℝ) : HasDerivAt (splineAt x y (curv id x y n) k) (splineDeriv id x y n k a) a := by
  have hx : HasDerivAt (fun b => b - x k) 1 a := (hasDerivAt_id a).sub_const _
  unfold splineAt splineDeriv
  simp only [id]
  generalize (y (k + 1) - y k) / gap x k - gap x k * (curv id x y n (k + 1) + 2 * curv id x y n k) / 3 = b
  generalize curv id x y n k = c
  generalize (curv id x y n (k + 1) - c) / (3 * gap x k) = d
  have := (hx.mul (((hx.mul ((hx.mul_const d).const_add c))).const_add b)).const_add (y k)
  refine HasDerivAt.congr_deriv (f := fun a => y k + (a - x k) * (b + (a - x k) * (c + (a - x k) * d))) this ?_
  simp only [Pi.mul_apply]
  ring

/-- The second derivative of the natural spline, in interval `k`. -/
def splineCurv (x y : Nat → ℝ) (n k : Nat) (a : ℝ) : ℝ :=
  2 * curv id x y n k + 2 * (curv id x y n (k + 1) - curv id x y n k) * ((a - x k) / gap x k)

theorem splineDeriv_deriv (x y : Nat → ℝ) (n k : Nat) (a : ℝ) : HasDerivAt (splineDeriv id x y n k) (splineCurv x y n k a) a := by
  have hx : HasDerivAt (fun b => b - x k) 1 a := (hasDerivAt_id a).sub_const _
  unfold splineDeriv splineCurv
  simp only [id]
  generalize (y (k + 1) - y k) / gap x k - gap x k * (curv id x y n (k + 1) + 2 * curv id x y n k) / 3 = b
  generalize curv id x y n k = c
  generalize curv id x y n (k + 1) = c'
  have := (hx.mul ((hx.const_mul (3 * ((c' - c) / (3 * gap x k)))).const_add (2 * c))).const_add b
  refine HasDerivAt.congr_deriv (f := fun a => b + (a - x k) * (2 * c + 3 * ((c' - c) / (3 * gap x k)) * (a - x k))) this ?_
  rcases eq_or_ne (gap x k) 0 with h0 | h0
  · rw [h0]; simp
  · field_simp
    ring

/-- C125: the cubic spline is twice differentiable everywhere, also at the stored momenta; its second derivative vanishes at both ends. -/
theorem C125_spline (xs ys : List ℝ) (h2 : 3 ≤ xs.length) (hxs : xs.Pairwise (· < ·)) :
    ∃ F' F'' : ℝ → ℝ, (∀ a, HasDerivAt (gslMode 2 xs ys) (F' a) a) ∧ (∀ a, HasDerivAt F' (F'' a) a) ∧ Continuous F'' ∧
      (∀ a, xs.head? = some a → F'' a = 0) ∧ ∀ a, xs.getLast? = some a → F'' a = 0 := by
  have hr := getD_rising hxs
  have g : ∀ k, k + 1 < xs.length → gap (fun i => xs.getD i 0) k ≠ 0 := fun k hk => (gap_pos hr hk).ne'
  have sj : ∀ k, k + 2 < xs.length → splineCurv (fun i => xs.getD i 0) (fun i => ys.getD i 0) xs.length k (xs.getD (k + 1) 0) =
      splineCurv (fun i => xs.getD i 0) (fun i => ys.getD i 0) xs.length (k + 1) (xs.getD (k + 1) 0) := by
    intro k hk
    unfold splineCurv
    rw [show xs.getD (k + 1) 0 - xs.getD k 0 = gap (fun i => xs.getD i 0) k from rfl, div_self (g k (by omega)), sub_self, zero_div]
    ring
  refine ⟨fun a => splineDeriv id (fun i => xs.getD i 0) (fun i => ys.getD i 0) xs.length (cellOf xs a) a,
    fun a => splineCurv (fun i => xs.getD i 0) (fun i => ys.getD i 0) xs.length (cellOf xs a) a, fun a => ?_, fun a => ?_, ?_, ?_, ?_⟩
  · rw [mode_spline]
    exact pieces_smooth xs (by omega) hxs (fun k a _ => splineAt_deriv _ _ _ k a)
      (fun k hk => ((splineAt_ends _ _ _ k (g k (by omega))).2.trans (splineAt_ends _ _ _ (k + 1) (g _ (by omega))).1.symm))
      (fun k hk => C123_sides hr hk) a
  · exact pieces_smooth xs (by omega) hxs (fun k a _ => splineDeriv_deriv _ _ _ k a) (fun k hk => C123_sides hr hk) sj a
  · refine pieces_continuous xs (by omega) hxs (fun k => ?_) sj
    unfold splineCurv
    fun_prop
  · intro a ha
    rw [List.head?_eq_getElem?] at ha
    have hx : xs.getD 0 0 = a := by rw [List.getD_eq_getElem?_getD, ha]; rfl
    dsimp only
    rw [C123_interval xs (by omega) hxs 0 a ha, if_pos (by omega), ← hx]
    unfold splineCurv
    rw [(C123_curvature hr).1, sub_self]
    ring
  · intro a ha
    rw [List.getLast?_eq_getElem?] at ha
    have hx : xs.getD (xs.length - 1) 0 = a := by rw [List.getD_eq_getElem?_getD, ha]; rfl
    obtain ⟨n, hn⟩ : ∃ n, xs.length = n + 2 := ⟨xs.length - 2, by omega⟩
    have hl := (C123_curvature (y := fun i => ys.getD i 0) hr).2.1
    dsimp only
    rw [C123_interval xs (by omega) hxs _ a ha, if_neg (by omega), ← hx]
    have gn := g n (by omega)
    unfold splineCurv
    rw [hn] at hl ⊢
    rw [show n + 2 - 1 = n + 1 by omega] at hl ⊢
    rw [show n + 2 - 2 = n by omega, hl, show xs.getD (n + 1) 0 - xs.getD n 0 = gap (fun i => xs.getD i 0) n from rfl, div_self gn]
    ring

/-- Derivative of `steffenAt`. -/
def steffenDeriv (x y : Nat → ℝ) (n k : Nat) (a : ℝ) : ℝ :=
  let h := gap x k
  let s := secant x y k
  let p := steffenSlope x y n k
  let q := steffenSlope x y n (k + 1)
  p + (a - x k) * (2 * ((3 * s - 2 * p - q) / h) + 3 * ((a - x k) * ((p + q - 2 * s) / h / h)))

theorem steffenAt_deriv (x y : Nat → ℝ) (n k : Nat) (a : ℝ) : HasDerivAt (steffenAt x y n k) (steffenDeriv x y n k a) a := by
  have hx : HasDerivAt (fun b => b - x k) 1 a := (hasDerivAt_id a).sub_const _
  unfold steffenAt steffenDeriv
  dsimp only
  generalize (3 * secant x y k - 2 * steffenSlope x y n k - steffenSlope x y n (k + 1)) / gap x k = c
  generalize (steffenSlope x y n k + steffenSlope x y n (k + 1) - 2 * secant x y k) / gap x k / gap x k = d
  generalize steffenSlope x y n k = b
  have := (hx.mul (((hx.mul ((hx.mul_const d).const_add c))).const_add b)).const_add (y k)
  refine HasDerivAt.congr_deriv (f := fun a => y k + (a - x k) * (b + (a - x k) * (c + (a - x k) * d))) this ?_
  simp only [Pi.mul_apply]
  ring

/-- C125: so is Steffen's interpolation, once. -/
theorem C125_steffen_smooth (xs ys : List ℝ) (h2 : 2 ≤ xs.length) (hxs : xs.Pairwise (· < ·)) :
    Differentiable ℝ (gslMode 6 xs ys) := by
  have hr := getD_rising hxs
  have g : ∀ k, k + 1 < xs.length → gap (fun i => xs.getD i 0) k ≠ 0 := fun k hk => (gap_pos hr hk).ne'
  intro a
  rw [mode_steffen]
  refine (pieces_smooth xs h2 hxs (fun k a _ => steffenAt_deriv _ _ _ k a)
    (fun k hk => ((steffenAt_ends _ _ _ k (g k (by omega))).2.trans (steffenAt_ends _ _ _ (k + 1) (g _ (by omega))).1.symm))
    (fun k hk => ?_) a).differentiableAt
  have gk := g k (by omega)
  unfold steffenDeriv
  dsimp only
  rw [show xs.getD (k + 1) 0 - xs.getD k 0 = gap (fun i => xs.getD i 0) k from rfl, sub_self]
  field_simp
  ring

/-- And the polynomial. -/
theorem C125_polynomial_smooth (xs ys : List ℝ) : Differentiable ℝ (gslMode 1 xs ys) := by
  rw [mode_polynomial]
  have : ∀ (x y : Nat → ℝ) (n k : Nat), Differentiable ℝ fun a => newtonHorner x y n a k := by
    intro x y n k
    induction k with
    | zero => exact differentiable_const _
    | succ k ih =>
      simp only [newtonHorner]
      fun_prop
  exact this _ _ _ _

/-! ### between the neighbours -/

theorem steffen_pair (s0 s1 p : ℝ) :
    (∃ α, 0 ≤ α ∧ α ≤ 2 ∧ (copysign 1 s0 + copysign 1 s1) * min |s0| (min |s1| (1 / 2 * |p|)) = α * s0) ∧
    ∃ α, 0 ≤ α ∧ α ≤ 2 ∧ (copysign 1 s0 + copysign 1 s1) * min |s0| (min |s1| (1 / 2 * |p|)) = α * s1 := by
  have key : ∀ s m : ℝ, 0 ≤ m → m ≤ |s| → (0 ≤ s → ∃ α, 0 ≤ α ∧ α ≤ 2 ∧ 2 * m = α * s) ∧ (s ≤ 0 → ∃ α, 0 ≤ α ∧ α ≤ 2 ∧ -2 * m = α * s) := by
    intro s m h0 h1
    constructor
    · intro hs
      rw [abs_of_nonneg hs] at h1
      rcases eq_or_lt_of_le hs with rfl | hs
      · exact ⟨0, le_refl _, by norm_num, by linarith⟩
      · refine ⟨2 * (m / s), by positivity, ?_, by field_simp⟩
        have := (div_le_one hs).2 h1
        linarith
    · intro hs
      rw [abs_of_nonpos hs] at h1
      rcases eq_or_lt_of_le hs with rfl | hs
      · exact ⟨0, le_refl _, by norm_num, by linarith⟩
      · have hs' : 0 < -s := by linarith
        refine ⟨2 * (m / -s), by positivity, ?_, ?_⟩
        · have := (div_le_one hs').2 h1
          linarith
        · have : s ≠ 0 := hs.ne
          field_simp
  have m0 : 0 ≤ min |s0| (min |s1| (1 / 2 * |p|)) := le_min (abs_nonneg _) (le_min (abs_nonneg _) (by positivity))
  have m1 : min |s0| (min |s1| (1 / 2 * |p|)) ≤ |s0| := min_le_left _ _
  have m2 : min |s0| (min |s1| (1 / 2 * |p|)) ≤ |s1| := (min_le_right _ _).trans (min_le_left _ _)
  generalize min |s0| (min |s1| (1 / 2 * |p|)) = m at *
  have c : ∀ s : ℝ, copysign 1 s = if s < 0 then -1 else 1 := by
    intro s
    unfold copysign
    have : ¬ ((1 : ℝ) < 0) := by norm_num
    simp only [this, false_and, false_or, zero_lt_one, true_and]
  rw [c, c]
  obtain ⟨a0, b0⟩ := key s0 m m0 m1
  obtain ⟨a1, b1⟩ := key s1 m m0 m2
  by_cases h0 : s0 < 0 <;> by_cases h1 : s1 < 0
  · rw [if_pos h0, if_pos h1, show (-1 + -1 : ℝ) = -2 by norm_num]
    exact ⟨b0 h0.le, b1 h1.le⟩
  · rw [if_pos h0, if_neg h1, show (-1 + 1 : ℝ) * m = 0 by ring]
    exact ⟨⟨0, le_refl _, by norm_num, by ring⟩, ⟨0, le_refl _, by norm_num, by ring⟩⟩
  · rw [if_neg h0, if_pos h1, show (1 + -1 : ℝ) * m = 0 by ring]
    exact ⟨⟨0, le_refl _, by norm_num, by ring⟩, ⟨0, le_refl _, by norm_num, by ring⟩⟩
  · rw [if_neg h0, if_neg h1, show (1 + 1 : ℝ) = 2 by norm_num]
    exact ⟨a0 (not_lt.1 h0), a1 (not_lt.1 h1)⟩

/-- The slope at an end of an interval has the sign of the interval and is at most twice as steep. -/
theorem steffen_slope (x y : Nat → ℝ) (n k : Nat) (hk : k + 1 < n) :
    (∃ α, 0 ≤ α ∧ α ≤ 2 ∧ steffenSlope x y n k = α * secant x y k) ∧ ∃ α, 0 ≤ α ∧ α ≤ 2 ∧ steffenSlope x y n (k + 1) = α * secant x y k := by
  unfold steffenSlope
  dsimp only
  constructor
  · split_ifs with h0 h1
    · exact ⟨1, by norm_num, by norm_num, by rw [h0]; ring⟩
    · omega
    · exact (steffen_pair _ _ _).2
  · rw [if_neg (by omega)]
    split_ifs with h1
    · exact ⟨1, by norm_num, by norm_num, by rw [show n - 2 = k by omega]; ring⟩
    · rw [Nat.add_sub_cancel]
      exact (steffen_pair _ _ _).1

theorem hermite_between {α β t : ℝ} (a0 : 0 ≤ α) (a2 : α ≤ 2) (b0 : 0 ≤ β) (b2 : β ≤ 2) (t0 : 0 ≤ t) (t1 : t ≤ 1) :
    0 ≤ t * (α + t * ((3 - 2 * α - β) + t * (α + β - 2))) ∧ t * (α + t * ((3 - 2 * α - β) + t * (α + β - 2))) ≤ 1 := by
  have e1 : t * (α + t * ((3 - 2 * α - β) + t * (α + β - 2))) = α * (t * (1 - t) ^ 2) + (2 - β) * (t ^ 2 * (1 - t)) + t ^ 2 := by ring
  have e2 : 1 - t * (α + t * ((3 - 2 * α - β) + t * (α + β - 2))) = β * (t ^ 2 * (1 - t)) + (2 - α) * (t * (1 - t) ^ 2) + (1 - t) ^ 2 := by ring
  have h1 : 0 ≤ 1 - t := by linarith
  constructor
  · rw [e1]
    have : 0 ≤ 2 - β := by linarith
    positivity
  · have : 0 ≤ 2 - α := by linarith
    have : 0 ≤ 1 - t * (α + t * ((3 - 2 * α - β) + t * (α + β - 2))) := by
      rw [e2]
      positivity
    linarith

/-- C125: Steffen's interpolation stays between the stored neighbours. -/
theorem C125_steffen_between (xs ys : List ℝ) (h2 : 2 ≤ xs.length) (hxs : xs.Pairwise (· < ·)) (j : Nat)
    (x0 x1 y0 y1 a : ℝ) (hx0 : xs[j]? = some x0) (hx1 : xs[j + 1]? = some x1) (hy0 : ys[j]? = some y0) (hy1 : ys[j + 1]? = some y1)
    (h0 : x0 ≤ a) (h1 : a ≤ x1) : min y0 y1 ≤ gslMode 6 xs ys a ∧ gslMode 6 xs ys a ≤ max y0 y1 := by
  have hr := getD_rising hxs
  have lj := (List.getElem?_eq_some_iff.1 hx1).1
  have g : ∀ k, k + 1 < xs.length → gap (fun i => xs.getD i 0) k ≠ 0 := fun k hk => (gap_pos hr hk).ne'
  have ex0 : xs.getD j 0 = x0 := by rw [List.getD_eq_getElem?_getD, hx0]; rfl
  have ex1 : xs.getD (j + 1) 0 = x1 := by rw [List.getD_eq_getElem?_getD, hx1]; rfl
  have ey0 : ys.getD j 0 = y0 := by rw [List.getD_eq_getElem?_getD, hy0]; rfl
  have ey1 : ys.getD (j + 1) 0 = y1 := by rw [List.getD_eq_getElem?_getD, hy1]; rfl
  have uj : UsableCell (fun i => xs.getD i 0) xs.length j a := ⟨lj, .inr (ex0.trans_le h0), .inr (h1.trans_eq ex1.symm)⟩
  rw [mode_steffen]
  dsimp only
  have hj : ∀ k, k + 2 < xs.length → steffenAt (fun i => xs.getD i 0) (fun i => ys.getD i 0) xs.length k (xs.getD (k + 1) 0) =
      steffenAt (fun i => xs.getD i 0) (fun i => ys.getD i 0) xs.length (k + 1) (xs.getD (k + 1) 0) := fun k hk =>
    ((steffenAt_ends (fun i => xs.getD i 0) (fun i => ys.getD i 0) xs.length k (g k (by omega))).2.trans
      (steffenAt_ends (fun i => xs.getD i 0) (fun i => ys.getD i 0) xs.length (k + 1) (g _ (by omega))).1.symm)
  rw [pieces_same hr hj (fits_cellOf xs h2 a) uj]
  obtain ⟨⟨α, a0, a2, ea⟩, β, b0, b2, eb⟩ := steffen_slope (fun i => xs.getD i 0) (fun i => ys.getD i 0) xs.length j lj
  have gj := gap_pos hr lj
  have hs : secant (fun i => xs.getD i 0) (fun i => ys.getD i 0) j * gap (fun i => xs.getD i 0) j = y1 - y0 := by
    unfold secant
    dsimp only
    rw [ey0, ey1, div_mul_cancel₀ _ gj.ne']
  have hga : gap (fun i => xs.getD i 0) j = x1 - x0 := by unfold gap; dsimp only; rw [ex0, ex1]
  unfold steffenAt
  dsimp only
  rw [ea, eb, ex0, ey0]
  generalize secant (fun i => xs.getD i 0) (fun i => ys.getD i 0) j = s at *
  rw [hga] at gj hs ⊢
  have t0 : 0 ≤ (a - x0) / (x1 - x0) := div_nonneg (by linarith) gj.le
  have t1 : (a - x0) / (x1 - x0) ≤ 1 := (div_le_one gj).2 (by linarith)
  obtain ⟨l, u⟩ := hermite_between a0 a2 b0 b2 t0 t1
  have e : y0 + (a - x0) * (α * s + (a - x0) * ((3 * s - 2 * (α * s) - β * s) / (x1 - x0) +
      (a - x0) * ((α * s + β * s - 2 * s) / (x1 - x0) / (x1 - x0)))) =
      y0 + (y1 - y0) * ((a - x0) / (x1 - x0) * (α + (a - x0) / (x1 - x0) * ((3 - 2 * α - β) + (a - x0) / (x1 - x0) * (α + β - 2)))) := by
    rw [← hs]
    field_simp
  rw [e]
  generalize (a - x0) / (x1 - x0) * (α + (a - x0) / (x1 - x0) * ((3 - 2 * α - β) + (a - x0) / (x1 - x0) * (α + β - 2))) = w at l u
  rcases le_total y0 y1 with hy | hy
  · rw [min_eq_left hy, max_eq_right hy]
    constructor <;> nlinarith
  · rw [min_eq_right hy, max_eq_left hy]
    constructor <;> nlinarith

/-! ### what is not so -/

theorem kink_not {F : ℝ → ℝ} {c : ℝ} (h0 : ∀ t, 0 ≤ t → t < 1 → F (c - t) = 0) (h1 : ∀ t, 0 ≤ t → t < 1 → F (c + t) = t) : ¬ DifferentiableAt ℝ F c := by
  intro h
  have d1 : DifferentiableAt ℝ (fun t => F (c + t)) 0 := by
    have : DifferentiableAt ℝ F (c + 0) := by rwa [add_zero]
    exact this.comp (0 : ℝ) ((differentiableAt_const c).add differentiableAt_id)
  have d2 : DifferentiableAt ℝ (fun t => F (c - t)) 0 := by
    have : DifferentiableAt ℝ F (c - 0) := by rwa [sub_zero]
    exact this.comp (0 : ℝ) ((differentiableAt_const c).sub differentiableAt_id)
  refine not_differentiableAt_abs_zero ((d1.add d2).congr_of_eventuallyEq ?_)
  have : Set.Ioo (-1 : ℝ) 1 ∈ nhds (0 : ℝ) := Ioo_mem_nhds (by norm_num) (by norm_num)
  filter_upwards [this] with t ht
  simp only [Pi.add_apply]
  rcases le_total 0 t with h | h
  · rw [abs_of_nonneg h, h1 t h ht.2, h0 t h ht.2]
    ring
  · have e0 : c + t = c - -t := by ring
    have e1 : c - t = c + -t := by ring
    rw [abs_of_nonpos h, e0, e1, h0 (-t) (by linarith) (by linarith [ht.1]), h1 (-t) (by linarith) (by linarith [ht.1])]
    ring

/-- Five momenta. -/
def fiveGrid : List ℝ := [0, 1, 2, 3, 4]

/-- Zero up to the third, then rising. -/
def fiveRamp : List ℝ := [0, 0, 0, 1, 2]

theorem fiveGrid_increasing : fiveGrid.Pairwise (· < ·) := by norm_num [fiveGrid]

theorem five_cells : (∀ t : ℝ, 0 < t → t < 1 → cellOf fiveGrid (2 - t) = 1) ∧ ∀ t : ℝ, 0 ≤ t → t < 1 → cellOf fiveGrid (2 + t) = 2 := by
  constructor
  · intro t h0 h1
    have a1 : (1 : ℝ) ≤ 2 - t := by linarith
    have a2 : ¬ (2 : ℝ) ≤ 2 - t := by linarith
    simp [cellOf, fiveGrid, List.takeWhile, a1, a2, h0]
  · intro t h0 h1
    have a1 : (1 : ℝ) ≤ 2 + t := by linarith
    have a2 : (2 : ℝ) ≤ 2 + t := by linarith
    have a3 : ¬ (3 : ℝ) ≤ 2 + t := by linarith
    simp [cellOf, fiveGrid, List.takeWhile, a1, a3, h0]

/-- C125 is false as stated: Akima's interpolation, with the least number of points, has a corner. -/
theorem C125_refuted_akima : ¬ DifferentiableAt ℝ (gslMode 4 fiveGrid fiveRamp) 2 := by
  obtain ⟨c1, c2⟩ := five_cells
  refine kink_not (fun t h0 h1 => ?_) fun t h0 h1 => ?_
  · rcases eq_or_lt_of_le h0 with rfl | h0
    · exact C125_nodes 4 fiveGrid fiveRamp (by simp [fiveGrid]) fiveGrid_increasing 2 _ _ (by simp [fiveGrid]) (by simp [fiveRamp])
    · rw [mode_akima]
      dsimp only
      rw [c1 t h0 h1]
      norm_num [akimaAt, akimaB, akimaNE, akimaNext, akimaSlope, secant, gap, fiveGrid, fiveRamp]
  · rw [mode_akima]
    dsimp only
    rw [c2 t h0 h1]
    norm_num [akimaAt, akimaB, akimaNE, akimaNext, akimaSlope, secant, gap, fiveGrid, fiveRamp]

/-- C125 is false as stated: so does linear interpolation. -/
theorem C125_refuted_linear : ¬ DifferentiableAt ℝ (linear1 fiveGrid fiveRamp) 2 := by
  obtain ⟨c1, c2⟩ := five_cells
  refine kink_not (fun t h0 h1 => ?_) fun t h0 h1 => ?_
  · rcases eq_or_lt_of_le h0 with rfl | h0
    · unfold linear1
      have := c2 0 (le_refl _) (by norm_num)
      rw [show (2 - 0 : ℝ) = 2 + 0 by ring, this]
      norm_num [fiveGrid, fiveRamp]
    · unfold linear1
      rw [c1 t h0 h1]
      norm_num [fiveGrid, fiveRamp]
  · unfold linear1
    rw [c2 t h0 h1]
    norm_num [fiveGrid, fiveRamp]

/-- C125 is false as stated: the cubic spline and the polynomial leave the range of the stored values; from values that are not negative
they make negative ones. -/
theorem C125_refuted_between :
    gslMode 2 [0, 1, 2, 3] [0, 0, 1, 0] (1 / 2) = -3 / 20 ∧ gslMode 1 [0, 1, 2] [0, 0, 1] (1 / 2) = -1 / 8 := by
  constructor
  · rw [mode_spline]
    dsimp only
    have c1 : cellOf [0, 1, 2, 3] (1 / 2) = 0 := by norm_num [cellOf, List.takeWhile]
    rw [c1]
    norm_num [splineAt, curv, backward, forward, rhs, pivot, mult, recip, gap]
  · rw [mode_polynomial]
    norm_num [polynomialAt, newtonHorner, newtonDiff]

/-! ### files and conversion -/

/-- C125: a CODE file, interpolated in any way: at the stored momenta the distribution is the positive part of the sum of the stored
modes. -/
theorem C125_file_partial {me : ℝ} (hme : 0 < me) (garbage : Nat → List ℝ)
    (hgl : ∀ n, (garbage n).length = n) {F : CodeFile} {d : CodeData} (hF : CodeFileOf F d) (hs : CodeSizes d) (hT : 0 < d.Tref)
    {time : Int} {t : Nat} (ht : IsTime d.nt time t) {itype : Int} (hg : CodeGood d itype) (h2 : 2 ≤ d.nleg) :
    ∃ c, codeLoad me (gslMode) garbage F time itype = .ok c ∧
      ∀ ops : List (CodeOp ℝ), (∀ o ∈ ops, o.isEval = true) → ∃ c1, runCode c ops = some c1 ∧ ∀ j xi, j < d.np →
        ∃ c2, c1.eval (d.p j) xi = some (max 0 (d.sum me t j xi), c2) :=
  C120_nodes_partial hme (gslMode) garbage hgl hF hs hT ht hg h2
    fun xs ys j x y h2 hxs _ hx hy => C125_nodes itype xs ys h2 hxs j x y hx hy

/-- The pitches of a conversion increase. -/
theorem codePitch_increasing (ut : Bool) (n : Nat) : ((List.range n).map (codePitch ut n)).Pairwise (· < ·) := by
  rw [List.pairwise_map]
  refine List.Pairwise.imp_of_mem ?_ List.pairwise_lt_range
  intro a b ha hb hab
  rw [List.mem_range] at ha hb
  have hn : (0 : ℝ) < (n : ℝ) - 1 := by
    have : (2 : ℝ) ≤ (n : ℝ) := by exact_mod_cast (by omega : 2 ≤ n)
    linarith
  have hpi := Real.pi_pos
  unfold codePitch
  split_ifs
  · have h1 : ((n - b - 1 : Nat) : ℝ) < ((n - a - 1 : Nat) : ℝ) := by exact_mod_cast (by omega)
    have h2 : ((n - a - 1 : Nat) : ℝ) ≤ (n : ℝ) - 1 := by
      have : ((n - a - 1 : Nat) : ℝ) + 1 ≤ (n : ℝ) := by exact_mod_cast (by omega)
      linarith
    have h3 : (0 : ℝ) ≤ ((n - b - 1 : Nat) : ℝ) := Nat.cast_nonneg _
    generalize ((n - b - 1 : Nat) : ℝ) = u at *
    generalize ((n - a - 1 : Nat) : ℝ) = w at *
    refine Real.strictAntiOn_cos ⟨by positivity, ?_⟩ ⟨by apply div_nonneg _ hn.le; nlinarith, ?_⟩ ?_
    · rw [div_le_iff₀ hn]; nlinarith
    · rw [div_le_iff₀ hn]; nlinarith
    · rw [div_lt_div_iff_of_pos_right hn]; nlinarith
  · have : (a : ℝ) < (b : ℝ) := by exact_mod_cast hab
    have := (div_lt_div_iff_of_pos_right hn (a := 2 * (a : ℝ)) (b := 2 * (b : ℝ))).2 (by linarith)
    linarith

/-- The values of the table that a conversion makes. -/
theorem convert_rows {me : ℝ} (hme : 0 < me) (garbage : Nat → List ℝ)
    (hgl : ∀ n, (garbage n).length = n) {F : CodeFile} {d : CodeData} (hF : CodeFileOf F d) (hs : CodeSizes d) (hT : 0 < d.Tref)
    {time : Int} {t : Nat} (ht : IsTime d.nt time t) {itype : Int} (hg : CodeGood d itype) (h2 : 2 ≤ d.nleg)
    (ops : List (CodeOp ℝ)) (hops : ∀ o ∈ ops, o.isEval = true) (lg : Bool) (txi : List ℝ) :
    ∃ c c1 rows c2, codeLoad me (gslMode) garbage F time itype = .ok c ∧ runCode c ops = some c1 ∧
      c1.tabulate (fun j => (List.range d.nleg).map fun k => d.mode me t k j) d.np lg txi = some (rows, c2) ∧ rows.length = txi.length * d.np ∧
      (∀ i j x, txi[i]? = some x → j < d.np → rows[i * d.np + j]? = some (if lg = true then max 0 (d.sum me t j x) else d.sum me t j x)) ∧
      ∀ j x, j < d.np → ∃ c3, c1.eval (d.p j) x = some (max 0 (d.sum me t j x), c3) := by
  obtain ⟨ff, h1, hv, hload⟩ := codeLoad_good hme (gslMode) garbage hF hs hT ht hg
  obtain ⟨c, hc, hrest⟩ := C125_file_partial hme garbage hgl hF hs hT ht hg h2
  obtain ⟨c1, e1, hev⟩ := hrest ops hops
  rw [hload] at hc
  obtain rfl := CodeRes.ok.inj hc
  obtain ⟨c1', e1', ok1, -, hm, -, -⟩ := run_evals _ (⟨by simp [Code.new, hgl], by simpa [Code.new] using h2⟩ : CodeOk (Code.new (d.momenta.headD 0)
    (d.momenta.getLastD 0) ((List.range d.nleg).map fun m => codeMode (gslMode) itype d.momenta ff m) (garbage d.nleg)))
    (fun y hy => by cases hy) ops hops
  rw [e1] at e1'
  obtain rfl := Option.some.inj e1'
  obtain ⟨rows, c2, e2, hlen, hrows⟩ := C71_table (fun j => (List.range d.nleg).map fun k => d.mode me t k j) d.np lg txi c1 ok1
    (fun j => by rw [hm]; simp [Code.new])
  refine ⟨_, c1, rows, c2, hload, e1, e2, hlen, fun i j x hx hj => ?_, hev⟩
  have := hrows i j x hx hj
  rw [legSum_codeSum] at this
  exact this

theorem table_accepted (t : Table) (l fl : Bool) (h : GslTable t) : ∃ m, NMom.initialize t l fl = .ok m := by
  have h1 := h.leastP
  have h2 := h.leastXi
  have l1 : 0 < t.p.length := by split_ifs at h1 <;> omega
  have l2 : 0 < t.xi.length := by split_ifs at h2 <;> omega
  obtain ⟨a, b, e1, e2, -, -⟩ := increasing_ends h.incP (List.getElem?_eq_getElem l1)
  obtain ⟨c, d, e3, e4, -, -⟩ := increasing_ends h.incXi (List.getElem?_eq_getElem l2)
  exact ⟨⟨t, a, b, c, d, l, fl⟩, (C59_accepts_iff _ _ _ _).mpr ⟨h, e1, e2, e3, e4, rfl, rfl, rfl⟩⟩

theorem convert_table {d : CodeData} {itype : Int} (hg : CodeGood d itype) (ut : Bool) (n : Nat) (it : Int) (hn : gslLeast it ≤ n) (hnp : gslLeast it ≤ d.np)
    {f : List FV} (hf : f.length = n * d.np) : GslTable ⟨d.momenta, (List.range n).map (codePitch ut n), f, it⟩ := by
  refine ⟨?_, ?_, momenta_increasing hg.increasing, codePitch_increasing ut n, ?_⟩
  · dsimp only; rw [momenta_length]; exact hnp
  · dsimp only; rw [List.length_map, List.length_range]; exact hn
  · dsimp only; rw [momenta_length, List.length_map, List.length_range, hf, Nat.mul_comm]

theorem pitch_get (ut : Bool) {n i : Nat} (hi : i < n) : ((List.range n).map (codePitch ut n))[i]? = some (codePitch ut n i) := by
  rw [List.getElem?_map, List.getElem?_range hi]; rfl

/-- A node of an accepted table lies in its rectangle. -/
theorem node_inside {t : Table} {l : Bool} {m : NMom} (hm : NMom.initialize t l false = .ok m) {i j : Nat} {x y : ℝ} (hx : t.p[j]? = some x)
    (hy : t.xi[i]? = some y) : InRectangle m x y := by
  obtain ⟨hg, g1, g2, g3, g4, htab, hl, hf⟩ := (C59_accepts_iff _ _ _ _).mp hm
  obtain ⟨_, _, x1, x2, b1, b2⟩ := increasing_ends hg.incP hx
  obtain ⟨_, _, x3, x4, b3, b4⟩ := increasing_ends hg.incXi hy
  rw [g1] at x1; rw [g2] at x2; rw [g3] at x3; rw [g4] at x4
  obtain rfl := Option.some.inj x1
  obtain rfl := Option.some.inj x2
  obtain rfl := Option.some.inj x3
  obtain rfl := Option.some.inj x4
  exact ⟨b1, b2, by rw [hf]; exact b3, by rw [hf]; exact b4⟩

/-- C125: a CODE distribution with at least two modes, after any evaluations, is converted to a table: the table is accepted and has at
all its nodes the sum of the modes, with linear and with cubic interpolation, for both pitch grids; the distribution itself has the
positive part of it. -/
theorem C125_convert_partial {me : ℝ} (hme : 0 < me) (garbage : Nat → List ℝ)
    (hgl : ∀ n, (garbage n).length = n) {F : CodeFile} {d : CodeData} (hF : CodeFileOf F d) (hs : CodeSizes d) (hT : 0 < d.Tref)
    {time : Int} {t : Nat} (ht : IsTime d.nt time t) {itype : Int} (hg : CodeGood d itype) (h2 : 2 ≤ d.nleg)
    (ops : List (CodeOp ℝ)) (hops : ∀ o ∈ ops, o.isEval = true) (ut : Bool) (n : Nat) (it : Int)
    (hn : gslLeast it ≤ n) (hnp : gslLeast it ≤ d.np) :
    ∃ c c1 rows c2 m, codeLoad me (gslMode) garbage F time itype = .ok c ∧ runCode c ops = some c1 ∧
      c1.tabulate (fun j => (List.range d.nleg).map fun k => d.mode me t k j) d.np false ((List.range n).map (codePitch ut n)) = some (rows, c2) ∧
      NMom.initialize ⟨d.momenta, (List.range n).map (codePitch ut n), rows.map .num, it⟩ false false = .ok m ∧
      ∀ i j, i < n → j < d.np → m.eval gslSpline (d.p j) (codePitch ut n i) = .num (d.sum me t j (codePitch ut n i)) ∧
        ∃ c3, c1.eval (d.p j) (codePitch ut n i) = some (max 0 (d.sum me t j (codePitch ut n i)), c3) := by
  obtain ⟨c, c1, rows, c2, e0, e1, e2, hlen, hrows, hev⟩ := convert_rows hme garbage hgl hF hs hT ht hg h2 ops hops false
    ((List.range n).map (codePitch ut n))
  rw [List.length_map, List.length_range] at hlen
  have gt := convert_table hg ut n it hn hnp (f := rows.map .num) (by rw [List.length_map, hlen])
  obtain ⟨m, hm⟩ := table_accepted _ false false gt
  refine ⟨c, c1, rows, c2, m, e0, e1, e2, hm, fun i j hi hj => ⟨?_, hev j _ hj⟩⟩
  have hx := momenta_get d hj
  have hy := pitch_get ut hi
  obtain ⟨-, -, -, -, -, htab, hl, hf⟩ := (C59_accepts_iff _ _ _ _).mp hm
  rw [C59_inside gslSpline m _ _ (node_inside hm hx hy), htab, hl, hf, if_neg (by decide),
    C124_reproduces.numbers _ _ rows it j i _ _ _ gt hx hy (by rw [momenta_length]; exact hrows i j _ hy hj)]
  rfl

/-- C125: the same with logarithms, for distributions that are positive at all nodes: table and distribution agree there. -/
theorem C125_convert_log_partial {me : ℝ} (hme : 0 < me) (garbage : Nat → List ℝ)
    (hgl : ∀ n, (garbage n).length = n) {F : CodeFile} {d : CodeData} (hF : CodeFileOf F d) (hs : CodeSizes d) (hT : 0 < d.Tref)
    {time : Int} {t : Nat} (ht : IsTime d.nt time t) {itype : Int} (hg : CodeGood d itype) (h2 : 2 ≤ d.nleg)
    (ops : List (CodeOp ℝ)) (hops : ∀ o ∈ ops, o.isEval = true) (ut : Bool) (n : Nat) (it : Int)
    (hn : gslLeast it ≤ n) (hnp : gslLeast it ≤ d.np) (hpos : ∀ i j, i < n → j < d.np → 0 < d.sum me t j (codePitch ut n i)) :
    ∃ c c1 rows c2 m, codeLoad me (gslMode) garbage F time itype = .ok c ∧ runCode c ops = some c1 ∧
      c1.tabulate (fun j => (List.range d.nleg).map fun k => d.mode me t k j) d.np true ((List.range n).map (codePitch ut n)) = some (rows, c2) ∧
      NMom.initializeLog d.momenta ((List.range n).map (codePitch ut n)) rows it = .ok m ∧
      ∀ i j, i < n → j < d.np → ∃ v c3, m.eval gslSpline (d.p j) (codePitch ut n i) = .num v ∧ c1.eval (d.p j) (codePitch ut n i) = some (v, c3) := by
  obtain ⟨c, c1, rows, c2, e0, e1, e2, hlen, hrows, hev⟩ := convert_rows hme garbage hgl hF hs hT ht hg h2 ops hops true
    ((List.range n).map (codePitch ut n))
  rw [List.length_map, List.length_range] at hlen
  have hv : ∀ i j, i < n → j < d.np → rows[i * d.np + j]? = some (d.sum me t j (codePitch ut n i)) := fun i j hi hj => by
    rw [hrows i j _ (pitch_get ut hi) hj, if_pos rfl, max_eq_right (hpos i j hi hj).le]
  have allpos : ∀ v ∈ rows, 0 < v := by
    intro v hmem
    obtain ⟨k, hk, rfl⟩ := List.mem_iff_getElem.1 hmem
    have hnp0 : 0 < d.np := by
      rcases Nat.eq_zero_or_pos d.np with h | h
      · rw [h, Nat.mul_zero] at hlen; omega
      · exact h
    have hi : k / d.np < n := (Nat.div_lt_iff_lt_mul hnp0).2 (by omega)
    have := hv (k / d.np) (k % d.np) hi (Nat.mod_lt _ hnp0)
    rw [Nat.div_add_mod', List.getElem?_eq_getElem hk] at this
    rw [Option.some.inj this]
    exact hpos _ _ hi (Nat.mod_lt _ hnp0)
  have e : rows.map logFV = (rows.map Real.log).map FV.num := by
    rw [List.map_map]
    refine List.map_congr_left fun w hw => ?_
    simp [logFV, ne_of_gt (allpos w hw)]
  have gt := convert_table hg ut n it hn hnp (f := (rows.map Real.log).map .num) (by rw [List.length_map, List.length_map, hlen])
  obtain ⟨m, hm⟩ := table_accepted _ true false gt
  have hm' : NMom.initializeLog d.momenta ((List.range n).map (codePitch ut n)) rows it = .ok m := by
    unfold NMom.initializeLog
    rw [if_neg, e, hm]
    rw [List.any_eq_true]
    rintro ⟨v, hv, hlt⟩
    exact absurd (allpos v hv) (not_lt.2 (of_decide_eq_true hlt).le)
  refine ⟨c, c1, rows, c2, m, e0, e1, e2, hm', fun i j hi hj => ?_⟩
  obtain ⟨c3, e3⟩ := hev j (codePitch ut n i) hj
  refine ⟨_, c3, ?_, e3⟩
  have hx := momenta_get d hj
  have hy := pitch_get ut hi
  obtain ⟨-, -, -, -, -, htab, hl, hf⟩ := (C59_accepts_iff _ _ _ _).mp hm
  rw [C59_inside gslSpline m _ _ (node_inside hm hx hy), htab, hl, hf, if_neg (by decide),
    C124_reproduces.numbers _ _ (rows.map Real.log) it j i _ _ (Real.log (d.sum me t j (codePitch ut n i))) gt hx hy
      (by rw [momenta_length, List.getElem?_map, hv i j hi hj]; rfl), max_eq_right (hpos i j hi hj).le]
  exact congrArg FV.num (Real.exp_log (hpos i j hi hj))

/-! ### examples -/

/-- All types go through the stored value. -/
example (it : Int) : gslMode it fiveGrid fiveRamp 3 = 1 :=
  C125_nodes it fiveGrid fiveRamp (by simp [fiveGrid]) fiveGrid_increasing 3 3 1 rfl rfl

example : 0 ≤ gslMode 6 fiveGrid fiveRamp (5 / 2) ∧ gslMode 6 fiveGrid fiveRamp (5 / 2) ≤ 1 := by
  have := C125_steffen_between fiveGrid fiveRamp (by simp [fiveGrid]) fiveGrid_increasing 2 2 3 0 1 (5 / 2) rfl rfl rfl rfl (by norm_num) (by norm_num)
  simpa using this

example : ContinuousAt (gslMode 2 fiveGrid fiveRamp) 2 := by
  obtain ⟨F', -, h, -⟩ := C125_spline fiveGrid fiveRamp (by simp [fiveGrid]) fiveGrid_increasing
  exact (h 2).continuousAt

/-- The pitches of three points. -/
example : (List.range 3).map (codePitch false 3) = [-1, 0, 1] := by
  norm_num [codePitch, List.range_succ]

/-- Five momenta, two modes: one and zero. -/
def flatCode : CodeData := ⟨5, 2, 1, fun j => j, 1, 1, 1, fun _ k _ => if k = 0 then 1 else 0⟩

def flatCodeFile : CodeFile :=
  ⟨some ⟨1, 5, [0, 1, 2, 3, 4]⟩, some ⟨1, 1, [1]⟩, none, none, some ⟨1, 1, [2]⟩, some ⟨1, 10, [1, 1, 1, 1, 1, 0, 0, 0, 0, 0]⟩⟩

theorem flatCode_file : CodeFileOf flatCodeFile flatCode ∧ CodeSizes flatCode := by
  refine ⟨⟨?_, rfl, Or.inl ⟨rfl, rfl⟩, Or.inl ⟨rfl, rfl⟩, ?_, ?_⟩, ⟨by norm_num [flatCode], by norm_num [flatCode], by norm_num [flatCode], by norm_num [flatCode]⟩⟩
  · left
    norm_num [flatCodeFile, flatCode, List.range_succ]
  · simp [flatCodeFile, flatCode]
  · refine ⟨[1, 1, 1, 1, 1, 0, 0, 0, 0, 0], rfl, rfl, ?_⟩
    intro t k j ht hk hj
    simp only [flatCode] at ht hk hj ⊢
    obtain rfl : t = 0 := by omega
    interval_cases k <;> interval_cases j <;> norm_num

theorem flatCode_good (itype : Int) (h : 0 ≤ itype ∧ itype ≤ 6) : CodeGood flatCode itype := by
  refine ⟨?_, by simp [flatCode], ?_⟩
  · obtain ⟨h0, h6⟩ := h
    interval_cases itype
    · exact ⟨2, rfl, by simp [flatCode]⟩
    · exact ⟨3, rfl, by simp [flatCode]⟩
    · exact ⟨3, rfl, by simp [flatCode]⟩
    · exact ⟨3, rfl, by simp [flatCode]⟩
    · exact ⟨5, rfl, by simp [flatCode]⟩
    · exact ⟨5, rfl, by simp [flatCode]⟩
    · exact ⟨3, rfl, by simp [flatCode]⟩
  · intro j _
    simp [flatCode, CodeData.p]

theorem flatCode_positive (j : Nat) (xi : ℝ) : 0 < flatCode.sum 1 0 j xi := by
  have := Real.pi_pos
  norm_num [CodeData.sum, CodeData.mode, flatCode, Finset.sum_range_succ, legP]
  positivity

/-- It is converted to a table of logarithms with cubic interpolation, for every type of interpolation of the modes. -/
example (itype : Int) (h : 0 ≤ itype ∧ itype ≤ 6) :
    ∃ c c1 rows c2 m, codeLoad 1 (gslMode) (fun n => List.replicate n 0) flatCodeFile 0 itype = .ok c ∧ runCode c [] = some c1 ∧
      c1.tabulate (fun j => (List.range flatCode.nleg).map fun k => flatCode.mode 1 0 k j) flatCode.np true ((List.range 200).map (codePitch true 200)) = some (rows, c2) ∧
      NMom.initializeLog flatCode.momenta ((List.range 200).map (codePitch true 200)) rows 1 = .ok m ∧
      ∀ i j, i < 200 → j < flatCode.np → ∃ v c3, m.eval gslSpline (flatCode.p j) (codePitch true 200 i) = .num v ∧
        c1.eval (flatCode.p j) (codePitch true 200 i) = some (v, c3) :=
  C125_convert_log_partial (by norm_num) _ (fun n => List.length_replicate) flatCode_file.1 flatCode_file.2 (by norm_num [flatCode]) (t := 0)
    ⟨by simp [flatCode], Or.inl rfl⟩ (flatCode_good itype h) (by simp [flatCode]) [] (by simp) true 200 1 (by decide) (by decide)
    fun i j _ _ => flatCode_positive j _

end

end Softlib
