/-
C61 with rounding: how far the Legendre modes of the CODE distribution are from the Legendre polynomials.
Model: LegRoundModel.lean.
-/
import Verif.Dist.LegRoundModel
import Verif.Dist.LegendreProps
import Verif.Dist.LinearRoundProps
import Verif.General.VecRoundProps

namespace Softlib

open Softlib.Dist Softlib.General

/-- One step of the recursion, with an error `δ`, does not increase
`(a - x b)² + (1 - x²) b²` by more than the error. -/
theorem leg_energy {x a b B δ S : ℚ} (hx : x ^ 2 ≤ 1) (hB0 : 0 ≤ B) (hB1 : B ≤ 1) (hS : 0 ≤ S)
    (h : (a - x * b) ^ 2 + (1 - x ^ 2) * b ^ 2 ≤ S ^ 2) :
    ((1 + B) * x * a - B * b + δ - x * a) ^ 2 + (1 - x ^ 2) * a ^ 2 ≤ (S + |δ|) ^ 2 := by
  have e0 : (a - x * b) ^ 2 + (1 - x ^ 2) * b ^ 2 = (x * a - b) ^ 2 + (1 - x ^ 2) * a ^ 2 := by ring
  rw [e0] at h
  have hs : 0 ≤ (1 - x ^ 2) * a ^ 2 := mul_nonneg (by linarith) (sq_nonneg a)
  set w := x * a - b with hw
  have hB2 : B ^ 2 ≤ 1 := pow_le_one₀ hB0 hB1
  have hd : (B * w) ^ 2 ≤ w ^ 2 := by
    rw [mul_pow]
    exact mul_le_of_le_one_left (sq_nonneg w) hB2
  have hdS : |B * w| ≤ S := abs_le_of_sq_le_sq (by linarith) hS
  have e1 : (1 + B) * x * a - B * b + δ - x * a = B * w + δ := by rw [hw]; ring
  rw [e1]
  have m : B * w * δ ≤ S * |δ| :=
    le_trans (le_abs_self _) (by rw [abs_mul]; exact mul_le_mul_of_nonneg_right hdS (abs_nonneg δ))
  have q : δ ^ 2 = |δ| ^ 2 := (sq_abs δ).symm
  nlinarith [m, q, h, hd, hs]

/-- The exact coefficient. -/
def legCoef (n : ℕ) : ℚ := ((n : ℚ) + 1) / ((n : ℚ) + 2)

theorem legCoef_unit (n : ℕ) : 0 ≤ legCoef n ∧ legCoef n ≤ 1 := by
  unfold legCoef
  refine ⟨by positivity, ?_⟩
  rw [div_le_one (by positivity)]
  linarith

theorem legP_step (x : ℚ) (n : ℕ) :
    legP x (n + 2) = (1 + legCoef n) * x * legP x (n + 1) - legCoef n * legP x n := by
  have := cast_ne (K := ℚ) n
  simp only [legP, legCoef]
  field_simp
  ring

theorem legP_cast (x : ℚ) (n : ℕ) : ((legP x n : ℚ) : ℝ) = legP (x : ℝ) n := by
  induction n using Nat.strong_induction_on with
  | _ n ih =>
    match n with
    | 0 => simp [legP]
    | 1 => simp [legP]
    | n + 2 =>
      simp only [legP]
      push_cast
      rw [ih (n + 1) (by omega), ih n (by omega)]

theorem legP_le_one {x : ℚ} (hx : |x| ≤ 1) (n : ℕ) : |legP x n| ≤ 1 := by
  rw [abs_le] at hx
  have := C61_bounded (x : ℝ) (by exact_mod_cast hx.1) (by exact_mod_cast hx.2) n
  rw [← legP_cast] at this
  exact_mod_cast this

/-- Any sequence that follows the recursion up to relative errors `ω` stays close to the polynomials. -/
theorem leg_perturbed {x ω : ℚ} (hx : |x| ≤ 1) (hω : 0 ≤ ω) (N : ℕ) (y : ℕ → ℚ) (h0 : y 0 = 1) (h1 : y 1 = x)
    (hN : ω * (N * (N - 1)) ≤ 1)
    (hy : ∀ n M, n + 2 ≤ N → |y n| ≤ M → |y (n + 1)| ≤ M →
      |y (n + 2) - ((1 + legCoef n) * x * y (n + 1) - legCoef n * y n)| ≤ ω * M) :
    ∀ l, l + 1 ≤ N →
      ((y (l + 1) - legP x (l + 1)) - x * (y l - legP x l)) ^ 2 + (1 - x ^ 2) * (y l - legP x l) ^ 2 ≤ (2 * ω * l) ^ 2 ∧
      |y l - legP x l| ≤ ω * (l * (l - 1)) ∧ |y (l + 1) - legP x (l + 1)| ≤ ω * ((l + 1) * l) := by
  have hx2 : x ^ 2 ≤ 1 := by rw [← sq_abs]; exact pow_le_one₀ (abs_nonneg x) hx
  intro l
  induction l with
  | zero => intro _; rw [h0, h1]; simp [legP]
  | succ l ih =>
    intro hl
    obtain ⟨i1, i2, i3⟩ := ih (by omega)
    have hl' : (l : ℚ) + 2 ≤ N := by exact_mod_cast hl
    have l0 : (0 : ℚ) ≤ l := Nat.cast_nonneg l
    have bd : ω * (((l : ℚ) + 1) * l) ≤ 1 :=
      le_trans (mul_le_mul_of_nonneg_left (mul_le_mul (by linarith) (by linarith) l0 (by linarith)) hω) hN
    have bd0 : ω * ((l : ℚ) * (l - 1)) ≤ ω * (((l : ℚ) + 1) * l) := mul_le_mul_of_nonneg_left (by nlinarith) hω
    have near : ∀ k, |y k - legP x k| ≤ ω * (((l : ℚ) + 1) * l) → |y k| ≤ 2 := by
      intro k hk
      have := legP_le_one hx k
      have t := abs_add_le (y k - legP x k) (legP x k)
      rw [sub_add_cancel] at t
      linarith
    have d := hy l 2 (by omega) (near l (le_trans i2 bd0)) (near (l + 1) i3)
    set δ := y (l + 2) - ((1 + legCoef l) * x * y (l + 1) - legCoef l * y l) with hδ
    obtain ⟨c0, c1⟩ := legCoef_unit l
    have e := leg_energy (δ := δ) hx2 c0 c1 (by positivity) i1
    have e2 : (1 + legCoef l) * x * (y (l + 1) - legP x (l + 1)) - legCoef l * (y l - legP x l) + δ = y (l + 2) - legP x (l + 2) := by
      rw [hδ, legP_step]; ring
    rw [e2] at e
    have S0 : (0 : ℚ) ≤ 2 * ω * l + |δ| := by positivity
    have S1 : 2 * ω * l + |δ| ≤ 2 * ω * (l + 1) := by linarith
    have E : ((y (l + 2) - legP x (l + 2)) - x * (y (l + 1) - legP x (l + 1))) ^ 2 + (1 - x ^ 2) * (y (l + 1) - legP x (l + 1)) ^ 2 ≤
        (2 * ω * ((l : ℚ) + 1)) ^ 2 := le_trans e (pow_le_pow_left₀ S0 S1 2)
    refine ⟨by push_cast; exact E, by push_cast; rw [show (l : ℚ) + 1 - 1 = l by ring]; exact i3, ?_⟩
    have s0 : 0 ≤ (1 - x ^ 2) * (y (l + 1) - legP x (l + 1)) ^ 2 := mul_nonneg (by linarith) (sq_nonneg _)
    have hd : |(y (l + 2) - legP x (l + 2)) - x * (y (l + 1) - legP x (l + 1))| ≤ 2 * ω * ((l : ℚ) + 1) :=
      abs_le_of_sq_le_sq (by linarith) (by positivity)
    have t := abs_add_le ((y (l + 2) - legP x (l + 2)) - x * (y (l + 1) - legP x (l + 1))) (x * (y (l + 1) - legP x (l + 1)))
    rw [sub_add_cancel, abs_mul] at t
    have t2 : |x| * |y (l + 1) - legP x (l + 1)| ≤ |y (l + 1) - legP x (l + 1)| := mul_le_of_le_one_left (abs_nonneg _) hx
    push_cast
    have : ω * (((l : ℚ) + 1) * l) + 2 * ω * ((l : ℚ) + 1) = ω * (((l : ℚ) + 1 + 1) * ((l : ℚ) + 1)) := by ring
    show |y (l + 2) - legP x (l + 2)| ≤ _
    linarith

theorem factors_dev {u : ℚ} (h0 : 0 ≤ u) (h1 : u ≤ 1) {k : ℕ} {d : ℚ} (h : Factors u k d) : |d - 1| ≤ (1 + u) ^ k - 1 := by
  have a := one_add_mul_le_pow (a := -u) (by linarith) k
  have b := one_add_mul_le_pow (a := u) (by linarith) k
  rw [abs_le]
  refine ⟨?_, by linarith [h.2]⟩
  have := h.1
  rw [show (1 : ℚ) + -u = 1 - u by ring] at a
  linarith

/-- One step as computed. -/
theorem legR_step {u : ℚ} (R : Rnd u) (hu : u ≤ 1) {x : ℚ} (hx : |x| ≤ 1) (n : ℕ) (hi : ∀ k : ℕ, k ≤ 2 * n + 3 → R.Is k) (M : ℚ)
    (m0 : |legR R x n| ≤ M) (m1 : |legR R x (n + 1)| ≤ M) :
    |legR R x (n + 2) - ((1 + legCoef n) * x * legR R x (n + 1) - legCoef n * legR R x n)| ≤ 3 * ((1 + u) ^ 4 - 1) * M := by
  have h0 := R.u_nonneg
  obtain ⟨c0, c1⟩ := legCoef_unit n
  have i1 : R.fl (2 * ((n + 1 : ℕ) : ℚ)) = 2 * ((n + 1 : ℕ) : ℚ) := by
    have := hi (2 * (n + 1)) (by omega)
    push_cast at this ⊢; exact this
  have i2 : R.fl (2 * ((n + 1 : ℕ) : ℚ) + 1) = 2 * ((n + 1 : ℕ) : ℚ) + 1 := by
    have := hi (2 * (n + 1) + 1) (by omega)
    push_cast at this ⊢; exact this
  have i3 : R.fl (((n + 1 : ℕ) : ℚ) + 1) = ((n + 1 : ℕ) : ℚ) + 1 := by
    have := hi (n + 1 + 1) (by omega)
    push_cast at this ⊢; exact this
  have hp : ((n : ℚ) + 2) ≠ 0 := by positivity
  have eA : (2 * ((n + 1 : ℕ) : ℚ) + 1) / (((n + 1 : ℕ) : ℚ) + 1) = 1 + legCoef n := by
    have : ((n + 1 : ℕ) : ℚ) + 1 = (n : ℚ) + 2 := by push_cast; ring
    rw [this, legCoef]; push_cast; field_simp; ring
  have eB : ((n + 1 : ℕ) : ℚ) / (((n + 1 : ℕ) : ℚ) + 1) = legCoef n := by
    have : ((n + 1 : ℕ) : ℚ) + 1 = (n : ℚ) + 2 := by push_cast; ring
    rw [this, legCoef]; push_cast; rfl
  have hA : legA R (n + 1) = R.fl (1 + legCoef n) := by rw [legA, i1, i2, i3, eA]
  have hB : legB R (n + 1) = R.fl (legCoef n) := by rw [legB, i3, eB]
  rw [legR, hA, hB]
  generalize legR R x n = y0 at *
  generalize legR R x (n + 1) = y1 at *
  generalize legCoef n = c at *
  obtain ⟨d1, f1, g1⟩ := fl_factor R (1 + c)
  obtain ⟨e1, k1, j1⟩ := fl_factor R c
  rw [g1, j1]
  obtain ⟨d2, f2, g2⟩ := fl_factor R ((1 + c) * d1 * x)
  rw [g2]
  obtain ⟨d3, f3, g3⟩ := fl_factor R ((1 + c) * d1 * x * d2 * y1)
  obtain ⟨e2, k2, j2⟩ := fl_factor R (c * e1 * y0)
  rw [g3, j2]
  obtain ⟨d4, f4, g4⟩ := fl_factor R ((1 + c) * d1 * x * d2 * y1 * d3 - c * e1 * y0 * e2)
  rw [g4]
  have MM : ∀ {j k : ℕ} {a b : ℚ}, Factors u j a → Factors u k b → Factors u (j + k) (a * b) := fun ha hb => factors_mul h0 hu ha hb
  have p := factors_dev h0 hu (MM (MM (MM f1 f2) f3) f4)
  have q := factors_dev h0 hu (factors_mono h0 hu (k := 4) (by norm_num) (MM (MM k1 k2) f4))
  norm_num only at p
  have e : ((1 + c) * d1 * x * d2 * y1 * d3 - c * e1 * y0 * e2) * d4 - ((1 + c) * x * y1 - c * y0) =
      (1 + c) * x * y1 * (d1 * d2 * d3 * d4 - 1) - c * y0 * (e1 * e2 * d4 - 1) := by ring
  rw [e]
  generalize d1 * d2 * d3 * d4 - 1 = P at *
  generalize e1 * e2 * d4 - 1 = Q at *
  have W : (0 : ℚ) ≤ (1 + u) ^ 4 - 1 := le_trans (abs_nonneg _) q
  generalize (1 + u) ^ 4 - 1 = w at *
  have M0 : 0 ≤ M := le_trans (abs_nonneg _) m0
  have a1 : |(1 + c) * x * y1 * P| ≤ 2 * M * w := by
    rw [abs_mul, abs_mul, abs_mul, abs_of_nonneg (by linarith : 0 ≤ 1 + c)]
    refine mul_le_mul ?_ p (abs_nonneg _) (by positivity)
    refine mul_le_mul ?_ m1 (abs_nonneg _) (by norm_num)
    calc (1 + c) * |x| ≤ 2 * 1 := mul_le_mul (by linarith) hx (abs_nonneg _) (by norm_num)
      _ = 2 := by norm_num
  have a2 : |c * y0 * Q| ≤ 1 * M * w := by
    rw [abs_mul, abs_mul, abs_of_nonneg c0]
    refine mul_le_mul ?_ q (abs_nonneg _) (by positivity)
    exact mul_le_mul c1 m0 (abs_nonneg _) (by norm_num)
  have t := abs_sub ((1 + c) * x * y1 * P) (c * y0 * Q)
  linarith

/-- Without rounding these are the polynomials. -/
theorem C61_rounded_exact (x : ℚ) (n : ℕ) : legR exactRnd x n = legP x n := by
  induction n using Nat.strong_induction_on with
  | _ n ih =>
    match n with
    | 0 => rfl
    | 1 => rfl
    | n + 2 =>
      rw [legP_step, legR, ih (n + 1) (by omega), ih n (by omega)]
      have hp : ((n : ℚ) + 2) ≠ 0 := by positivity
      have h2 : (n : ℚ) + 1 + 1 = n + 2 := by ring
      simp only [exactRnd, id, legA, legB, legCoef]
      push_cast
      rw [h2]
      field_simp
      ring

/-- **C61 (rounded)**: for every rounding, every `x` between -1 and 1 and every number of modes (as long as the
whole numbers used are exact and the bound is below one), mode `l` is at most `3((1+u)⁴ - 1) l (l-1)`
away from the Legendre polynomial. -/
theorem C61_rounded {u : ℚ} (R : Rnd u) (hu : u ≤ 1) {x : ℚ} (hx : |x| ≤ 1) (N : ℕ) (hi : ∀ k : ℕ, k < 2 * N → R.Is k)
    (hN : 3 * ((1 + u) ^ 4 - 1) * (N * (N - 1)) ≤ 1) (l : ℕ) (hl : l ≤ N) :
    |legR R x l - legP x l| ≤ 3 * ((1 + u) ^ 4 - 1) * (l * (l - 1)) := by
  have W : (0 : ℚ) ≤ (1 + u) ^ 4 - 1 := by
    have := one_le_pow₀ (n := 4) (show (1 : ℚ) ≤ 1 + u by linarith [R.u_nonneg]); linarith
  have P := leg_perturbed hx (by positivity : (0 : ℚ) ≤ 3 * ((1 + u) ^ 4 - 1)) N (legR R x) rfl rfl hN
    (fun n M hn m0 m1 => legR_step R hu hx n (fun k hk => hi k (by omega)) M m0 m1)
  rcases l with _ | l
  · simp [legR, legP]
  · have := (P l hl).2.2
    push_cast
    rw [show (l : ℚ) + 1 - 1 = l by ring]
    exact this

/-- **C61 (rounded)**: `double`, up to ten million modes. -/
theorem C61_double {x : ℚ} (hx : |x| ≤ 1) (l : ℕ) (hl : l ≤ 10 ^ 7) :
    |legR (rndBits 52) x l - legP x l| ≤ 134 / 10 ^ 17 * (l * (l - 1)) := by
  have c := C61_rounded (rndBits 52) (by norm_num) hx (10 ^ 7) (fun k hk => by
      have := flBits_exact 52 (e := 0) (m := (k : ℤ)) (by rw [Nat.abs_cast]; exact_mod_cast le_trans hk.le (by norm_num))
      simpa [rndBits, Rnd.Is] using this) (by norm_num) l hl
  refine le_trans c (mul_le_mul_of_nonneg_right (by norm_num) ?_)
  rcases l with _ | l
  · simp
  · push_cast; rw [show (l : ℚ) + 1 - 1 = l by ring]; positivity

/-- **C61 (rounded)** Parity is exact. -/
theorem C61_rounded_parity (p : ℕ) (x : ℚ) (n : ℕ) : legR (rndBits p) (-x) n = (-1) ^ n * legR (rndBits p) x n := by
  have hneg : ∀ z, (rndBits p).fl (-z) = -(rndBits p).fl z := flBits_neg p
  induction n using Nat.strong_induction_on with
  | _ n ih =>
    match n with
    | 0 => simp [legR]
    | 1 => simp [legR]
    | n + 2 =>
      rw [legR, legR, ih (n + 1) (by omega), ih n (by omega), mul_neg, hneg]
      rcases neg_one_pow_eq_or ℚ n with h | h
      · rw [pow_succ, pow_succ, pow_succ, h]
        simp
      · rw [pow_succ, pow_succ, pow_succ, h]
        simp only [neg_mul, one_mul, mul_neg, mul_one, neg_neg, hneg]
        rw [show -(rndBits p).fl ((rndBits p).fl (legA (rndBits p) (n + 1) * x) * legR (rndBits p) x (n + 1)) -
          -(rndBits p).fl (legB (rndBits p) (n + 1) * legR (rndBits p) x n) =
          -((rndBits p).fl ((rndBits p).fl (legA (rndBits p) (n + 1) * x) * legR (rndBits p) x (n + 1)) -
            (rndBits p).fl (legB (rndBits p) (n + 1) * legR (rndBits p) x n)) by ring, hneg]

/-- **C61, refuted** with rounding: in `double` the sixth mode at one is not one. -/
theorem C61_refuted_rounded : legR (rndBits 52) 1 6 = 1 - 1 / 2 ^ 53 := by decide +kernel

/-- **C61 (rounded)**: the sum of the modes, for every number of them: each is wrong by the rounding of the
sum and by the error of its polynomial. -/
theorem C61_rounded_sum {u : ℚ} (R : Rnd u) (hu : u ≤ 1) (f : ℕ → ℚ) {x : ℚ} (hx : |x| ≤ 1) (N : ℕ) (hi : ∀ k : ℕ, k < 2 * N → R.Is k)
    (hN : 3 * ((1 + u) ^ 4 - 1) * (N * (N - 1)) ≤ 1) :
    |codeSumR R f x N - ∑ i ∈ Finset.range N, f i * legP x i * (-1) ^ i| ≤
      ∑ i ∈ Finset.range N, |f i| * (2 * ((1 + u) ^ (N + 2) - 1) + 3 * ((1 + u) ^ 4 - 1) * (i * (i - 1))) := by
  have h0 := R.u_nonneg
  have hs : ∀ i, legSgn i = (-1) ^ i := by
    intro i
    rw [legSgn]
    rcases Nat.even_or_odd i with h | h
    · rw [if_pos (Nat.even_iff.mp h), h.neg_one_pow]
    · rw [if_neg (by rw [Nat.odd_iff.mp h]; decide), h.neg_one_pow]
  have hsa : ∀ i, |legSgn i| = 1 := fun i => by rw [hs, abs_pow, abs_neg, abs_one, one_pow]
  have d : |codeSumR R f x N - ∑ i ∈ Finset.range N, R.fl (f i * legR R x i) * legSgn i| ≤
      ((1 + u) ^ (N + 1) - 1) * ∑ i ∈ Finset.range N, |R.fl (f i * legR R x i) * legSgn i| :=
    C32_rounded_dot R N (fun i => R.fl (f i * legR R x i)) legSgn
  have W : (0 : ℚ) ≤ (1 + u) ^ (N + 1) - 1 := by
    have := one_le_pow₀ (n := N + 1) (show (1 : ℚ) ≤ 1 + u by linarith); linarith
  have W4 : (0 : ℚ) ≤ (1 + u) ^ 4 - 1 := by
    have := one_le_pow₀ (n := 4) (show (1 : ℚ) ≤ 1 + u by linarith); linarith
  -- one term
  have term : ∀ i ∈ Finset.range N, |R.fl (f i * legR R x i) * legSgn i - f i * legP x i * (-1) ^ i| +
      ((1 + u) ^ (N + 1) - 1) * |R.fl (f i * legR R x i) * legSgn i| ≤
      |f i| * (2 * ((1 + u) ^ (N + 2) - 1) + 3 * ((1 + u) ^ 4 - 1) * (i * (i - 1))) := by
    intro i hiN
    have hiN' : i < N := Finset.mem_range.mp hiN
    have c := C61_rounded R hu hx N hi hN i hiN'.le
    have i1 : (i : ℚ) ≤ N - 1 := by
      have : (i : ℚ) + 1 ≤ N := by exact_mod_cast hiN'
      linarith
    have i0 : (0 : ℚ) ≤ i := Nat.cast_nonneg i
    have y2 : |legR R x i| ≤ 2 := by
      have t := abs_add_le (legR R x i - legP x i) (legP x i)
      rw [sub_add_cancel] at t
      have b := legP_le_one hx i
      have : 3 * ((1 + u) ^ 4 - 1) * ((i : ℚ) * (i - 1)) ≤ 3 * ((1 + u) ^ 4 - 1) * (N * (N - 1)) :=
        mul_le_mul_of_nonneg_left (by nlinarith) (by positivity)
      linarith
    have r := R.rel (f i * legR R x i)
    rw [hs, abs_mul _ ((-1 : ℚ) ^ i), abs_pow, abs_neg, abs_one, one_pow, mul_one, ← sub_mul, abs_mul _ ((-1 : ℚ) ^ i), abs_pow,
      abs_neg, abs_one, one_pow, mul_one]
    have y3 : |f i * legR R x i| ≤ |f i| * 2 := by rw [abs_mul]; exact mul_le_mul_of_nonneg_left y2 (abs_nonneg _)
    have t1 : |R.fl (f i * legR R x i) - f i * legP x i| ≤ u * |f i * legR R x i| + |f i| * |legR R x i - legP x i| := by
      have t := abs_add_le (R.fl (f i * legR R x i) - f i * legR R x i) (f i * legR R x i - f i * legP x i)
      rw [sub_add_sub_cancel] at t
      have e : f i * legR R x i - f i * legP x i = f i * (legR R x i - legP x i) := by ring
      rw [e, abs_mul (f i) (_ - _)] at t
      linarith
    have t2 : |R.fl (f i * legR R x i)| ≤ (1 + u) * |f i * legR R x i| := by
      have t := abs_add_le (R.fl (f i * legR R x i) - f i * legR R x i) (f i * legR R x i)
      rw [sub_add_cancel] at t
      linarith
    have t3 := mul_le_mul_of_nonneg_left t2 W
    have t4 : |f i| * |legR R x i - legP x i| ≤ |f i| * (3 * ((1 + u) ^ 4 - 1) * (i * (i - 1))) :=
      mul_le_mul_of_nonneg_left c (abs_nonneg _)
    have pw : (1 + u) ^ (N + 2) = (1 + u) ^ (N + 1) * (1 + u) := pow_succ _ _
    generalize (1 + u) ^ (N + 1) = w at *
    have W2 : (0 : ℚ) ≤ w * (1 + u) - 1 := by nlinarith
    have t5 := mul_le_mul_of_nonneg_left y3 W2
    rw [pw]
    generalize |f i * legR R x i| = z at *
    generalize |R.fl (f i * legR R x i)| = z' at *
    generalize |R.fl (f i * legR R x i) - f i * legP x i| = z'' at *
    nlinarith
  calc _ ≤ |codeSumR R f x N - ∑ i ∈ Finset.range N, R.fl (f i * legR R x i) * legSgn i| +
        |∑ i ∈ Finset.range N, R.fl (f i * legR R x i) * legSgn i - ∑ i ∈ Finset.range N, f i * legP x i * (-1) ^ i| := abs_sub_le _ _ _
    _ ≤ ((1 + u) ^ (N + 1) - 1) * ∑ i ∈ Finset.range N, |R.fl (f i * legR R x i) * legSgn i| +
        ∑ i ∈ Finset.range N, |R.fl (f i * legR R x i) * legSgn i - f i * legP x i * (-1) ^ i| := by
      refine add_le_add d ?_
      rw [← Finset.sum_sub_distrib]
      exact Finset.abs_sum_le_sum_abs _ _
    _ = ∑ i ∈ Finset.range N, (|R.fl (f i * legR R x i) * legSgn i - f i * legP x i * (-1) ^ i| +
        ((1 + u) ^ (N + 1) - 1) * |R.fl (f i * legR R x i) * legSgn i|) := by
      rw [Finset.mul_sum, ← Finset.sum_add_distrib]
      exact Finset.sum_congr rfl (fun _ _ => add_comm _ _)
    _ ≤ _ := Finset.sum_le_sum term

/-- **C61 (rounded)**: the value with negative sums cut off is as close. -/
theorem C61_rounded_value {u : ℚ} (R : Rnd u) (hu : u ≤ 1) (f : ℕ → ℚ) {x : ℚ} (hx : |x| ≤ 1) (N : ℕ) (hi : ∀ k : ℕ, k < 2 * N → R.Is k)
    (hN : 3 * ((1 + u) ^ 4 - 1) * (N * (N - 1)) ≤ 1) :
    |codeValR R f x N - max 0 (∑ i ∈ Finset.range N, f i * legP x i * (-1) ^ i)| ≤
      ∑ i ∈ Finset.range N, |f i| * (2 * ((1 + u) ^ (N + 2) - 1) + 3 * ((1 + u) ^ 4 - 1) * (i * (i - 1))) := by
  refine le_trans ?_ (C61_rounded_sum R hu f hx N hi hN)
  have e : codeValR R f x N = max 0 (codeSumR R f x N) := by
    rw [codeValR]
    split_ifs with h
    · rw [max_eq_left h]
    · rw [max_eq_right (not_le.mp h).le]
  rw [e]
  have := abs_max_sub_max_le_abs (codeSumR R f x N) (∑ i ∈ Finset.range N, f i * legP x i * (-1) ^ i) 0
  rwa [max_comm _ (0 : ℚ), max_comm _ (0 : ℚ)] at this

/-- The hypotheses of `C61_rounded` are met, here with a hundred modes in `double`. -/
example : (1 / 2 / 2 ^ 52 : ℚ) ≤ 1 ∧ |(1 / 3 : ℚ)| ≤ 1 ∧ (∀ k : ℕ, k < 2 * 100 → (rndBits 52).Is k) ∧
    3 * ((1 + 1 / 2 / 2 ^ 52 : ℚ) ^ 4 - 1) * (((100 : ℕ) : ℚ) * (((100 : ℕ) : ℚ) - 1)) ≤ 1 := by
  refine ⟨by norm_num, by rw [abs_of_pos] <;> norm_num, fun k hk => ?_, by norm_num⟩
  have := flBits_exact 52 (e := 0) (m := (k : ℤ)) (by rw [Nat.abs_cast]; exact_mod_cast le_trans hk.le (by norm_num))
  simpa [rndBits, Rnd.Is] using this

end Softlib
