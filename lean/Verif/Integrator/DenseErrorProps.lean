/-
C143: accuracy of dense output in floating point.
-/
import Verif.Integrator.StageRoundProps
import Verif.Integrator.DenseRoundProps
import Mathlib.Tactic.FieldSimp

namespace Softlib
open Softlib.Integrator Softlib.General

/-! ### numbers with a size and a count of roundings -/

/-- `x` is at most `A`, and `x'` is off by what `m` roundings do to numbers of this size. -/
def NearSize (u : ℚ) (m : ℕ) (A x' x : ℚ) : Prop := |x| ≤ A ∧ |x' - x| ≤ ((1 + u) ^ m - 1) * A

theorem NearSize.nonneg {u A x' x : ℚ} {m : ℕ} (h : NearSize u m A x' x) : 0 ≤ A := le_trans (abs_nonneg _) h.1

theorem sized_self {u : ℚ} (hu : 0 ≤ u) (x : ℚ) : NearSize u 0 |x| x x := ⟨le_refl _, by simp⟩

theorem sized_more {u A x' x : ℚ} (hu : 0 ≤ u) {m n : ℕ} (h : NearSize u m A x' x) (hmn : m ≤ n) : NearSize u n A x' x :=
  ⟨h.1, le_trans h.2 (mul_le_mul_of_nonneg_right (by linarith [pow_mono hu hmn]) h.nonneg)⟩

theorem sized_fl {u A x' x : ℚ} (R : Rnd u) {m : ℕ} (h : NearSize u m A x' x) : NearSize u (m + 1) A (R.fl x') x := ⟨h.1, fl_near R m h.1 h.2⟩

theorem sized_add {u A B x' x y' y : ℚ} {m : ℕ} (h : NearSize u m A x' x) (k : NearSize u m B y' y) : NearSize u m (A + B) (x' + y') (x + y) :=
  ⟨le_trans (abs_add_le _ _) (add_le_add h.1 k.1), by
    rw [add_sub_add_comm, mul_add]
    exact le_trans (abs_add_le _ _) (add_le_add h.2 k.2)⟩

theorem sized_sub {u A B x' x y' y : ℚ} {m : ℕ} (h : NearSize u m A x' x) (k : NearSize u m B y' y) : NearSize u m (A + B) (x' - y') (x - y) :=
  ⟨le_trans (abs_sub _ _) (add_le_add h.1 k.1), by
    rw [sub_sub_sub_comm, mul_add]
    exact le_trans (abs_sub _ _) (add_le_add h.2 k.2)⟩

theorem sized_mul {u A B x' x y' y : ℚ} (hu : 0 ≤ u) {m n : ℕ} (h : NearSize u m A x' x) (k : NearSize u n B y' y) : NearSize u (m + n) (A * B) (x' * y') (x * y) := by
  refine ⟨by rw [abs_mul]; exact mul_le_mul h.1 k.1 (abs_nonneg _) h.nonneg, ?_⟩
  have hA := h.nonneg
  have hB := k.nonneg
  have hm := one_le_pow' hu m
  have hx : |x'| ≤ (1 + u) ^ m * A := by
    have := abs_add_le (x' - x) x
    rw [sub_add_cancel] at this
    linarith [h.1, h.2]
  rw [show x' * y' - x * y = x' * (y' - y) + (x' - x) * y by ring]
  refine le_trans (abs_add_le _ _) ?_
  rw [abs_mul, abs_mul]
  have e1 : |x'| * |y' - y| ≤ (1 + u) ^ m * A * (((1 + u) ^ n - 1) * B) := mul_le_mul hx k.2 (abs_nonneg _) (by positivity)
  have e2 : |x' - x| * |y| ≤ ((1 + u) ^ m - 1) * A * B := mul_le_mul h.2 k.1 (abs_nonneg _) (mul_nonneg (by linarith) hA)
  rw [pow_add]
  linarith

/-! ### the fraction of the step -/

/-- Four roundings, as the divisor is rounded. -/
theorem fraction_near {u : ℚ} (R : Rnd u) (hu2 : u ≤ 1 / 2) {t0 t1 T : ℚ} (h01 : t0 < t1) (h0 : t0 ≤ T) (hT : T ≤ t1) :
    NearSize u 5 1 (R.fl (R.fl (T - t0) / R.fl (t1 - t0))) ((T - t0) / (t1 - t0)) := by
  have hu := unit_nonneg R
  have hD : 0 < t1 - t0 := by linarith
  have hN : 0 ≤ T - t0 := by linarith
  have r1 := R.rel (t1 - t0)
  have r2 := R.rel (T - t0)
  rw [abs_of_pos hD] at r1
  rw [abs_of_nonneg hN] at r2
  have hs1 : (T - t0) / (t1 - t0) ≤ 1 := by rw [div_le_one hD]; linarith
  have hs0 : 0 ≤ (T - t0) / (t1 - t0) := div_nonneg hN hD.le
  obtain ⟨l1, l2⟩ := abs_le.1 r1
  obtain ⟨m1, m2⟩ := abs_le.1 r2
  set D := t1 - t0
  set N := T - t0
  set D' := R.fl D
  set N' := R.fl N
  have hD' : 0 < D' := by nlinarith
  -- the factor of the divisor
  have hup : D ≤ (1 + u) ^ 2 * D' := by nlinarith [mul_nonneg hu hD.le, mul_nonneg (mul_nonneg hu hu) hD.le, mul_nonneg hu (sq_nonneg u)]
  have hlo : D' ≤ (1 + u) * D := by linarith
  have key : |N' / D' - N / D| ≤ ((1 + u) ^ 4 - 1) * 1 := by
    have e : N' / D' - N / D = (N' * D - N * D') / (D' * D) := by field_simp
    have hb : |N' * D - N * D'| ≤ ((1 + u) ^ 4 - 1) * (D' * D) := by
      have hND : N ≤ D := by linarith [(div_le_one hD).1 hs1]
      have p1 : 0 ≤ u * N := mul_nonneg hu hN
      have h4 : 1 + 4 * u ≤ (1 + u) ^ 4 := by nlinarith [mul_nonneg hu hu, pow_nonneg hu 3, pow_nonneg hu 4]
      have h5 : |N' * D - N * D'| ≤ 2 * u * (N * D) := by
        rw [abs_le]
        constructor <;> nlinarith
      refine le_trans h5 ?_
      have h6 : 4 * u * (D' * D) ≤ ((1 + u) ^ 4 - 1) * (D' * D) := mul_le_mul_of_nonneg_right (by linarith) (by positivity)
      refine le_trans ?_ h6
      have h7 : N ≤ 2 * D' := by nlinarith
      nlinarith [mul_nonneg (mul_nonneg hu hD.le) (sub_nonneg.2 h7)]
    rw [e, abs_div, abs_of_pos (by positivity : 0 < D' * D), mul_one, div_le_iff₀ (by positivity)]
    exact hb
  exact sized_fl R ⟨by rw [abs_of_nonneg hs0]; exact hs1, key⟩

/-! ### the coefficients and the value -/

/-- The size of the terms of which the answer is made. -/
def denseSize (y1 y2 hdy1 hdy2 A5 : ℚ) : ℚ := 5 * |y1| + 4 * |y2| + 2 * |hdy1| + |hdy2| + A5

/-- One component of an answer, from the stored values: 39 roundings of numbers of the size of the terms. -/
theorem dense_near {u : ℚ} (R : Rnd u) (h y1 y2 dy1 dy2 r5' r5 A5 s' s : ℚ) (h5 : NearSize u 8 A5 r5' r5) (hs : NearSize u 5 1 s' s) (hs0 : 0 ≤ s) :
    |denseEvalR R (prepareR R h y1 y2 dy1 dy2 r5') s' -
      (y1 + s * ((y2 - y1) + (1 - s) * ((h * dy1 - (y2 - y1)) + s * ((y2 - y1) - h * dy2 - (h * dy1 - (y2 - y1)) + (1 - s) * r5))))| ≤
      ((1 + u) ^ 39 - 1) * denseSize y1 y2 (h * dy1) (h * dy2) A5 := by
  have hu := unit_nonneg R
  have a1 := sized_self hu y1
  have a2 := sized_fl R (sized_sub (sized_self hu y2) a1)
  have b1 := sized_fl R (sized_self hu (h * dy1))
  have b2 := sized_fl R (sized_self hu (h * dy2))
  have a3 := sized_fl R (sized_sub b1 a2)
  have a4 := sized_fl R (sized_sub (sized_fl R (sized_sub a2 b2)) a3)
  have s1 : NearSize u 6 1 (R.fl (1 - s')) (1 - s) := by
    have hs1 : s ≤ 1 := le_trans (le_abs_self _) hs.1
    refine sized_fl R ⟨by rw [abs_of_nonneg (by linarith)]; linarith, ?_⟩
    rw [show 1 - s' - (1 - s) = -(s' - s) by ring, abs_neg]
    exact hs.2
  have c1 := sized_fl R (sized_mul hu s1 h5)
  have c2 := sized_fl R (sized_add (sized_more hu a4 (by norm_num)) c1)
  have c3 := sized_fl R (sized_mul hu hs c2)
  have c4 := sized_fl R (sized_add (sized_more hu a3 (by norm_num)) c3)
  have c5 := sized_fl R (sized_mul hu s1 c4)
  have c6 := sized_fl R (sized_add (sized_more hu a2 (by norm_num)) c5)
  have c7 := sized_fl R (sized_mul hu hs c6)
  have c8 := sized_fl R (sized_add (sized_more hu a1 (by norm_num)) c7)
  have c9 := sized_more hu c8 (n := 39) (by norm_num)
  refine le_trans c9.2 (le_of_eq ?_)
  unfold denseSize
  ring

/-- **C143** The same against the dense output of the method in exact arithmetic, for what was stored. -/
theorem C143_value {u : ℚ} (R : Rnd u) (hu2 : u ≤ 1 / 2) (h y1 y2 dy1 dy2 k3 k4 k5 k6 t0 t1 T : ℚ) (h01 : t0 < t1) (h0 : t0 ≤ T) (hT : T ≤ t1) :
    |(denseEvalR R (prepareR R h y1 y2 dy1 dy2 (fifthR R h dy1 k3 k4 k5 k6 dy2)) (R.fl (R.fl (T - t0) / R.fl (t1 - t0))) : ℝ) -
      denseEval (V := ℝ) (prepareDense (V := ℝ) h y1 y2 dy1 dy2 k3 k4 k5 k6) ((T - t0) / (t1 - t0))| ≤
      ((1 + u) ^ 39 - 1) * (5 * |(y1 : ℝ)| + 4 * |(y2 : ℝ)| + |(h : ℝ)| * (4 * |(dy1 : ℝ)| + 3 * |(k3 : ℝ)| + 6 * |(k4 : ℝ)| + 4 * |(k5 : ℝ)| +
        2 * |(k6 : ℝ)| + 4 * |(dy2 : ℝ)|)) := by
  have hu := unit_nonneg R
  set r5 : ℚ := h * (-12715105075 / 11282082432 * dy1 + 87487479700 / 32700410799 * k3 + -10690763975 / 1880347072 * k4 + 701980252875 / 199316789632 * k5 +
    -1453857185 / 822651844 * k6 + 69997945 / 29380423 * dy2) with hr5
  set A5 : ℚ := |h| * (|-12715105075 / 11282082432 * dy1| + |87487479700 / 32700410799 * k3| + |-10690763975 / 1880347072 * k4| +
    |701980252875 / 199316789632 * k5| + |-1453857185 / 822651844 * k6| + |69997945 / 29380423 * dy2|) with hA5
  have e5 : (r5 : ℝ) = h * (d1 * dy1 + d3 * k3 + d4 * k4 + d5 * k5 + d6 * k6 + d7 * dy2) := by
    rw [hr5]; unfold d1 d3 d4 d5 d6 d7; push_cast; ring
  have f5 : NearSize u 8 A5 (fifthR R h dy1 k3 k4 k5 k6 dy2) r5 := by
    constructor
    · rw [hr5, hA5, abs_mul]
      apply mul_le_mul_of_nonneg_left _ (abs_nonneg _)
      have t : ∀ a b : ℚ, |a + b| ≤ |a| + |b| := abs_add_le
      refine le_trans (t _ _) (add_le_add_left (le_trans (t _ _) (add_le_add_left (le_trans (t _ _) (add_le_add_left (le_trans (t _ _)
        (add_le_add_left (t _ _) _)) _)) _)) _)
    · have := C137_fifth R h dy1 k3 k4 k5 k6 dy2
      rw [← e5] at this
      have hc : ((|fifthR R h dy1 k3 k4 k5 k6 dy2 - r5| : ℚ) : ℝ) ≤ ((((1 + u) ^ 8 - 1) * A5 : ℚ) : ℝ) := by
        push_cast
        refine le_trans this (le_of_eq ?_)
        rw [hA5]; unfold d1 d3 d4 d5 d6 d7; push_cast; ring
      exact_mod_cast hc
  have hs0 : 0 ≤ (T - t0) / (t1 - t0) := div_nonneg (by linarith) (by linarith)
  have key := dense_near R h y1 y2 dy1 dy2 _ r5 A5 _ _ f5 (fraction_near R hu2 h01 h0 hT) hs0
  have hsz : denseSize y1 y2 (h * dy1) (h * dy2) A5 ≤ 5 * |y1| + 4 * |y2| + |h| * (4 * |dy1| + 3 * |k3| + 6 * |k4| + 4 * |k5| + 2 * |k6| + 4 * |dy2|) := by
    unfold denseSize
    rw [hA5]
    simp only [abs_mul]
    rw [show |(-12715105075 / 11282082432 : ℚ)| = 12715105075 / 11282082432 by norm_num [abs_div, abs_neg],
      show |(87487479700 / 32700410799 : ℚ)| = 87487479700 / 32700410799 by norm_num [abs_div],
      show |(-10690763975 / 1880347072 : ℚ)| = 10690763975 / 1880347072 by norm_num [abs_div, abs_neg],
      show |(701980252875 / 199316789632 : ℚ)| = 701980252875 / 199316789632 by norm_num [abs_div],
      show |(-1453857185 / 822651844 : ℚ)| = 1453857185 / 822651844 by norm_num [abs_div, abs_neg],
      show |(69997945 / 29380423 : ℚ)| = 69997945 / 29380423 by norm_num [abs_div]]
    have p1 := mul_nonneg (abs_nonneg h) (abs_nonneg dy1)
    have p2 := mul_nonneg (abs_nonneg h) (abs_nonneg k3)
    have p3 := mul_nonneg (abs_nonneg h) (abs_nonneg k4)
    have p4 := mul_nonneg (abs_nonneg h) (abs_nonneg k5)
    have p5 := mul_nonneg (abs_nonneg h) (abs_nonneg k6)
    have p6 := mul_nonneg (abs_nonneg h) (abs_nonneg dy2)
    nlinarith
  have key2 := le_trans key (mul_le_mul_of_nonneg_left hsz (by linarith [one_le_pow' hu 39]))
  have hcast := (Rat.cast_le (K := ℝ)).2 key2
  push_cast at hcast
  refine le_trans (le_of_eq ?_) hcast
  rw [e5]
  simp only [denseEval, prepareDense, smul_eq_mul]

/-- **C143** In units of rounding. -/
theorem C143_units {u : ℚ} (R : Rnd u) (hu : u ≤ 1 / 2000) : (1 + u) ^ 39 - 1 ≤ 40 * u := by
  have h0 := unit_nonneg R
  have h1 : (1 + u) ^ 2 ≤ 1 + 2001 / 1000 * u := by nlinarith
  have h2 : (1 + u) ^ 4 ≤ 1 + 4005 / 1000 * u := by
    calc (1 + u) ^ 4 = ((1 + u) ^ 2) ^ 2 := by ring
      _ ≤ (1 + 2001 / 1000 * u) ^ 2 := pow_le_pow_left₀ (by positivity) h1 2
      _ ≤ _ := by nlinarith
  have h3 : (1 + u) ^ 8 ≤ 1 + 8020 / 1000 * u := by
    calc (1 + u) ^ 8 = ((1 + u) ^ 4) ^ 2 := by ring
      _ ≤ (1 + 4005 / 1000 * u) ^ 2 := pow_le_pow_left₀ (by positivity) h2 2
      _ ≤ _ := by nlinarith
  have h4 : (1 + u) ^ 16 ≤ 1 + 16075 / 1000 * u := by
    calc (1 + u) ^ 16 = ((1 + u) ^ 8) ^ 2 := by ring
      _ ≤ (1 + 8020 / 1000 * u) ^ 2 := pow_le_pow_left₀ (by positivity) h3 2
      _ ≤ _ := by nlinarith
  have h5 : (1 + u) ^ 32 ≤ 1 + 32285 / 1000 * u := by
    calc (1 + u) ^ 32 = ((1 + u) ^ 16) ^ 2 := by ring
      _ ≤ (1 + 16075 / 1000 * u) ^ 2 := pow_le_pow_left₀ (by positivity) h4 2
      _ ≤ _ := by nlinarith
  have h6 : (1 + u) ^ 7 ≤ 1 + 7020 / 1000 * u := by
    calc (1 + u) ^ 7 = (1 + u) ^ 4 * (1 + u) ^ 2 * (1 + u) := by ring
      _ ≤ (1 + 4005 / 1000 * u) * (1 + 2001 / 1000 * u) * (1 + u) := by gcongr
      _ ≤ _ := by nlinarith [mul_nonneg h0 h0, mul_nonneg (mul_nonneg h0 h0) (sub_nonneg.2 hu)]
  have : (1 + u) ^ 39 ≤ (1 + 32285 / 1000 * u) * (1 + 7020 / 1000 * u) := by
    calc (1 + u) ^ 39 = (1 + u) ^ 32 * (1 + u) ^ 7 := by ring
      _ ≤ _ := by gcongr
  nlinarith

/-! ### integrations -/

/-- Every step of a history is a trial step, with the coefficients made from it. -/
def StepsStored {u : ℚ} (R : Rnd u) (trial : ℚ → ℚ → (ℕ → ℚ) → (ℕ → ℚ) → TrialR) (s : HistR) : Prop :=
  1 ≤ s.n ∧ ∀ j, j + 1 < s.n → ∃ h, s.time (j + 1) = R.fl (s.time j + h) ∧ s.y (j + 1) = (trial (s.time j) h (s.y j) (s.dy j)).yout ∧
    s.dy (j + 1) = (trial (s.time j) h (s.y j) (s.dy j)).dydxout ∧
    ∀ i, s.rc j i = prepareR R h (s.y j i) (s.y (j + 1) i) (s.dy j i) (s.dy (j + 1) i) ((trial (s.time j) h (s.y j) (s.dy j)).r5 i)

theorem stepsStored_step {u : ℚ} (R : Rnd u) (pw : ℚ → ℚ → ℚ) (p : ParR) (eps : ℚ) (trial : ℚ → ℚ → (ℕ → ℚ) → (ℕ → ℚ) → TrialR) (fuel : ℕ)
    {s s' : HistR} {c c' : CtlR} (hs : StepsStored R trial s) (h : rkStepR R pw p eps trial fuel s c = .ok s' c') :
    StepsStored R trial s' ∧ s'.n = s.n + 1 := by
  unfold rkStepR at h
  dsimp only at h
  cases hl : stepLoopR R pw p eps (s.time (s.n - 1)) (fun h => (trial (s.time (s.n - 1)) h (s.y (s.n - 1)) (s.dy (s.n - 1))).err) fuel c.optimal c with
  | fuel => rw [hl] at h; cases h
  | underflow => rw [hl] at h; cases h
  | accepted h' c1 =>
    rw [hl] at h
    simp only [StepResR.ok.injEq] at h
    obtain ⟨rfl, rfl⟩ := h
    obtain ⟨h1, h2⟩ := hs
    refine ⟨⟨by simp [storeR], fun j hj => ?_⟩, rfl⟩
    have hj' : j < s.n := by simpa [storeR] using hj
    rcases Nat.lt_or_ge (j + 1) s.n with hlt | hge
    · obtain ⟨h'', a1, a2, a3, a4⟩ := h2 j hlt
      refine ⟨h'', ?_⟩
      simp only [storeR, if_neg (show j + 1 ≠ s.n by omega), if_neg (show j ≠ s.n by omega), if_neg (show j ≠ s.n - 1 by omega)]
      exact ⟨a1, a2, a3, a4⟩
    · obtain rfl : j = s.n - 1 := by omega
      refine ⟨h', ?_⟩
      simp only [storeR, if_pos (show s.n - 1 + 1 = s.n by omega), if_neg (show s.n - 1 ≠ s.n by omega), if_true]
      exact ⟨trivial, trivial, trivial, fun _ => trivial⟩

theorem stepsStored_run {u : ℚ} (R : Rnd u) (pw : ℚ → ℚ → ℚ) (p : ParR) (eps : ℚ) (trial : ℚ → ℚ → (ℕ → ℚ) → (ℕ → ℚ) → TrialR) (fuel : ℕ) :
    ∀ k (s s' : HistR) (c c' : CtlR), StepsStored R trial s → rkRunR R pw p eps trial fuel k s c = .ok s' c' → StepsStored R trial s' := by
  intro k
  induction k with
  | zero =>
    intro s s' c c' hs h
    simp only [rkRunR, StepResR.ok.injEq] at h
    obtain ⟨rfl, rfl⟩ := h
    exact hs
  | succ k ih =>
    intro s s' c c' hs h
    rw [rkRunR] at h
    cases hx : rkStepR R pw p eps trial fuel s c with
    | fuel => rw [hx] at h; cases h
    | underflow => rw [hx] at h; cases h
    | ok s1 c1 =>
      rw [hx] at h
      exact ih _ _ _ _ (stepsStored_step R pw p eps trial fuel hs hx).1 h

/-- Sums are rounded numbers. -/
theorem row_is {u : ℚ} (R : Rnd u) (h y : ℚ) (a : ℚ × ℚ) (l : List (ℚ × ℚ)) : R.Is (rowR R h y (a :: l)) := by
  have key : ∀ (l : List (ℚ × ℚ)) (z : ℚ), R.Is z → R.Is (rowR R h z l) := by
    intro l
    induction l with
    | nil => intro z hz; exact hz
    | cons b l ih => intro z _; exact ih _ (R.idem _)
  exact key l _ (R.idem _)

/-- **C143** Whole integrations: after any run, every answer to sorted requests within the integrated interval is the dense output of the method, in exact
arithmetic and for the values and slopes of the step that answers, up to 40 units of rounding of the size of the terms. -/
theorem C143_run {u : ℚ} (R : Rnd u) (hu : u ≤ 1 / 2000) (h1 : R.Is 1) (pw : ℚ → ℚ → ℚ) (p : ParR) (hp : 0 < p.minscale)
    (hpm : p.minscale ≤ p.maxscale) (eps : ℚ) (f : ℚ → (ℕ → ℚ) → ℕ → ℚ) (est : (ℕ → ℚ) → (ℕ → ℚ) → (ℕ → ℚ) → ErrR)
    (fuel n : ℕ) (hn : 1 ≤ n) (y0 : ℕ → ℚ) (hy : ∀ j, R.Is (y0 j))
    (c0 : CtlR) (hc0 : 0 < c0.optimal) (s : HistR) (c : CtlR)
    (h : rkRunR R pw p eps (dpTrialR R f est) fuel n (HistR.init y0 (f 0 y0)) c0 = .ok s c)
    (Ts : List ℚ) (hs : Ts.Pairwise (· ≤ ·)) (hr : ∀ T ∈ Ts, 0 ≤ T ∧ T ≤ s.time (s.n - 1)) :
    ∃ outs, outputDenseR R s Ts 0 = .ok outs ∧ outs.length = Ts.length ∧
      ∀ (i : ℕ) (T : ℚ) (o : ℕ → ℚ), Ts[i]? = some T → outs[i]? = some o →
        ∃ k st q, Answers s T k ∧ s.time k < s.time (k + 1) ∧ s.time (k + 1) = R.fl (s.time k + st) ∧ q = dpInnerR R f (s.time k) st (s.y k) (s.dy k) ∧
          s.y (k + 1) = q.yout ∧ s.dy (k + 1) = q.dydxout ∧
          ∀ j, |(o j : ℝ) - denseEval (V := ℝ) (prepareDense (V := ℝ) st (s.y k j) (s.y (k + 1) j) (s.dy k j) (s.dy (k + 1) j) (q.k3 j) (q.k4 j)
              (q.k5 j) (q.k6 j)) ((T - s.time k) / (s.time (k + 1) - s.time k))| ≤
            40 * u * (5 * |(s.y k j : ℝ)| + 4 * |(s.y (k + 1) j : ℝ)| + |(st : ℝ)| * (4 * |(s.dy k j : ℝ)| + 3 * |(q.k3 j : ℝ)| +
              6 * |(q.k4 j : ℝ)| + 4 * |(q.k5 j : ℝ)| + 2 * |(q.k6 j : ℝ)| + 4 * |(s.dy (k + 1) j : ℝ)|)) := by
  have h0 : StepsStored R (dpTrialR R f est) (HistR.init y0 (f 0 y0)) := by
    refine ⟨le_refl _, fun j hj => ?_⟩
    simp only [HistR.init] at hj
    omega
  obtain ⟨-, hst⟩ := stepsStored_run R pw p eps _ fuel n _ _ _ _ h0 h
  have htr : ∀ T h y dy j, R.Is ((dpTrialR R f est T h y dy).yout j) := fun T h y dy j => row_is R h _ _ _
  obtain ⟨outs, e, hl, ho⟩ := C38_rounded R (by linarith) h1 pw p hp hpm eps _ htr fuel n hn y0 (f 0 y0) hy c0 hc0 s c h Ts hs hr
  refine ⟨outs, e, hl, fun i T o hi hoi => ?_⟩
  obtain ⟨k, x, ha, hinc, -, -, hx, hv⟩ := ho i T o hi hoi
  obtain ⟨st, a1, a2, a3, a4⟩ := hst k ha.1
  refine ⟨k, st, _, ha, hinc, a1, rfl, a2, a3, fun j => ?_⟩
  rw [hv j, a4 j, hx]
  have hval := C143_value R (by linarith) st (s.y k j) (s.y (k + 1) j) (s.dy k j) (s.dy (k + 1) j)
    ((dpInnerR R f (s.time k) st (s.y k) (s.dy k)).k3 j) ((dpInnerR R f (s.time k) st (s.y k) (s.dy k)).k4 j)
    ((dpInnerR R f (s.time k) st (s.y k) (s.dy k)).k5 j) ((dpInnerR R f (s.time k) st (s.y k) (s.dy k)).k6 j)
    (s.time k) (s.time (k + 1)) T hinc ha.2.1 ha.2.2.1
  have hfif : (dpTrialR R f est (s.time k) st (s.y k) (s.dy k)).r5 j = fifthR R st (s.dy k j) ((dpInnerR R f (s.time k) st (s.y k) (s.dy k)).k3 j)
      ((dpInnerR R f (s.time k) st (s.y k) (s.dy k)).k4 j) ((dpInnerR R f (s.time k) st (s.y k) (s.dy k)).k5 j)
      ((dpInnerR R f (s.time k) st (s.y k) (s.dy k)).k6 j) (s.dy (k + 1) j) := by rw [a3]; rfl
  rw [hfif]
  refine le_trans hval (mul_le_mul_of_nonneg_right ?_ (by positivity))
  exact_mod_cast C143_units R hu

/-- The conditions are met in double precision. -/
example : (1 / 2 / 2 ^ 52 : ℚ) ≤ 1 / 2000 ∧ (rndBits 52).Is 1 := ⟨by norm_num, by unfold Rnd.Is; decide +kernel⟩

/-- In the middle of a step from 0 to 1 with slopes 1 the answer is one half, to 40 units of rounding of the size of the terms. -/
example {u : ℚ} (R : Rnd u) (hu : u ≤ 1 / 2000) :
    |(denseEvalR R (prepareR R 1 0 1 1 1 (fifthR R 1 1 1 1 1 1 1)) (R.fl (R.fl (1 / 2 - 0) / R.fl (1 - 0))) : ℝ) - 1 / 2| ≤ 40 * u * 27 := by
  have := C143_value R (by linarith) 1 0 1 1 1 1 1 1 1 0 1 (1 / 2) (by norm_num) (by norm_num) (by norm_num)
  have h2 : (((1 + u) ^ 39 - 1 : ℚ) : ℝ) ≤ ((40 * u : ℚ) : ℝ) := by exact_mod_cast C143_units R hu
  have h3 : denseEval (V := ℝ) (prepareDense (V := ℝ) ((1 : ℚ) : ℝ) ((0 : ℚ) : ℝ) ((1 : ℚ) : ℝ) ((1 : ℚ) : ℝ) ((1 : ℚ) : ℝ) ((1 : ℚ) : ℝ) ((1 : ℚ) : ℝ)
      ((1 : ℚ) : ℝ) ((1 : ℚ) : ℝ)) ((((1 / 2 : ℚ) : ℝ) - ((0 : ℚ) : ℝ)) / (((1 : ℚ) : ℝ) - ((0 : ℚ) : ℝ))) = 1 / 2 := by
    simp only [denseEval, prepareDense, smul_eq_mul, d1, d3, d4, d5, d6, d7]
    push_cast
    norm_num
  rw [h3] at this
  refine le_trans this ?_
  push_cast at h2 ⊢
  norm_num at h2 ⊢
  linarith

end Softlib
