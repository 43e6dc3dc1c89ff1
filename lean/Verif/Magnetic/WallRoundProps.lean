/-
C144: the three-dimensional wall test in floating point.
-/
import Verif.Magnetic.WallRoundModel
import Verif.Magnetic.DomainRoundProps
import Verif.Magnetic.AlarmProps
import Verif.Integrator.DenseErrorProps
import Mathlib.Topology.Order.IntermediateValue
import Mathlib.Topology.Algebra.Polynomial

namespace Softlib
open Softlib.Magnetic Softlib.General

variable {u : ℚ}

/-- What is used about `sqrt`: it is off by at most one unit of rounding. -/
def GoodSqrt (u : ℚ) (sq : ℚ → ℚ) : Prop := ∀ x, 0 ≤ x → 0 ≤ sq x ∧ (1 - u) ^ 2 * x ≤ sq x ^ 2 ∧ sq x ^ 2 ≤ (1 + u) ^ 2 * x

/-- How far the point (x, y, z) is outside of the cone through the tile from `v` to `w`: the difference of the squares of its distance from
the axis and of the radius of the cone at its height. -/
def coneGap {F : Type} [Field F] (vr vz wr wz x y z : F) : F := x ^ 2 + y ^ 2 - (vr + (z - vz) / (wz - vz) * (wr - vr)) ^ 2

/-- The point of the segment from `p` to `c` for the fraction `t`. -/
def onSegment (p c : Q3) (t : ℚ) : Q3 := ⟨p.x + t * (c.x - p.x), p.y + t * (c.y - p.y), p.z + t * (c.z - p.z)⟩

def gapAt (v w : Q2) (p c : Q3) (t : ℚ) : ℚ :=
  coneGap v.r v.z w.r w.z (onSegment p c t).x (onSegment p c t).y (onSegment p c t).z

/-- By how much the radius of the cone changes along the segment. -/
def coneRise (v w : Q2) (p c : Q3) : ℚ := (w.r - v.r) * ((c.z - p.z) / (w.z - v.z))

/-- The square of the horizontal length of the segment, less that of the change of the radius of the cone: zero if they are equally steep. -/
def slopeDiff (v w : Q2) (p c : Q3) : ℚ := (c.x - p.x) ^ 2 + (c.y - p.y) ^ 2 - coneRise v w p c ^ 2

/-- The size of the squares that are added and subtracted. -/
def wallSize (v w : Q2) (p c : Q3) : ℚ :=
  (c.x - p.x) ^ 2 + (c.y - p.y) ^ 2 + coneRise v w p c ^ 2 + (|v.r| + |(p.z - v.z) / (w.z - v.z) * (w.r - v.r)|) ^ 2 + p.x ^ 2 + p.y ^ 2

/-- The margin. -/
def wallMargin (u : ℚ) (v w : Q2) (p c : Q3) : ℚ := 128 * u * (wallSize v w p c ^ 2 / |slopeDiff v w p c|)

/-! ### errors -/

theorem sized_rel {A x' x z : ℚ} {m k : ℕ} (hu : 0 ≤ u) (h : NearSize u m A x' x) (hz : |z - x'| ≤ ((1 + u) ^ k - 1) * |x'|) :
    NearSize u (m + k) A z x := by
  refine ⟨h.1, ?_⟩
  have hA := h.nonneg
  have hk := one_le_pow' hu k
  have hx : |x'| ≤ (1 + u) ^ m * A := by
    have := abs_add_le (x' - x) x
    rw [sub_add_cancel] at this
    linarith [h.1, h.2]
  have h1 : |z - x| ≤ |z - x'| + |x' - x| := abs_sub_le _ _ _
  have h2 : ((1 + u) ^ k - 1) * |x'| ≤ ((1 + u) ^ k - 1) * ((1 + u) ^ m * A) := mul_le_mul_of_nonneg_left hx (by linarith)
  rw [pow_add]
  linarith [h.2]

theorem recip_rel (hu : 0 ≤ u) (hu2 : u ≤ 1 / 2) {x i : ℚ} (hx : x ≠ 0) (hi : |i - 1 / x| ≤ u * |1 / x|) :
    i ≠ 0 ∧ |1 / i - x| ≤ ((1 + u) ^ 2 - 1) * |x| := by
  have hx0 : 0 < |x| := abs_pos.2 hx
  have h1 : |i * x - 1| ≤ u := by
    have : (i - 1 / x) * x = i * x - 1 := by field_simp
    rw [← this, abs_mul]
    refine le_trans (mul_le_mul_of_nonneg_right hi hx0.le) ?_
    rw [mul_assoc, ← abs_mul, one_div_mul_cancel hx, abs_one, mul_one]
  have hi0 : i ≠ 0 := by
    rintro rfl
    rw [zero_mul, zero_sub, abs_neg, abs_one] at h1
    linarith
  refine ⟨hi0, ?_⟩
  have h2 : 1 - u ≤ |i * x| := by
    have := abs_sub_abs_le_abs_sub 1 (i * x)
    rw [abs_one, abs_sub_comm] at this
    linarith
  have e : 1 / i - x = -(i * x - 1) / (i * x) * x := by field_simp; ring
  rw [e, abs_mul]
  refine mul_le_mul_of_nonneg_right ?_ hx0.le
  rw [abs_div, abs_neg, div_le_iff₀ (by linarith)]
  have h3 : ((1 + u) ^ 2 - 1) * (1 - u) ≤ ((1 + u) ^ 2 - 1) * |i * x| := mul_le_mul_of_nonneg_left h2 (by nlinarith)
  have h4 : 0 ≤ u * (1 - u - u ^ 2) := mul_nonneg hu (by nlinarith)
  nlinarith

theorem recip_near (R : Rnd u) (hu2 : u ≤ 1 / 2) {d : ℚ} (hd : d ≠ 0) : NearSize u 3 |1 / d| (R.fl (1 / R.fl d)) (1 / d) := by
  have hu := unit_nonneg R
  have h1 := R.rel d
  have h2 := recip_rel hu hu2 (x := 1 / d) (i := R.fl d) (one_div_ne_zero hd) (by rwa [one_div_one_div])
  exact sized_fl R (m := 2) ⟨le_refl _, h2.2⟩

theorem abs_sq_mul (x : ℚ) : |x| * |x| = x ^ 2 := by rw [← sq, sq_abs]

theorem coef_abc (R : Rnd u) {a' a b' b c' c : ℚ} (ha : NearSize u 1 |a| a' a) (hb : NearSize u 1 |b| b' b) (hc : NearSize u 7 |c| c' c) :
    NearSize u 16 (a ^ 2 + b ^ 2 + c ^ 2) (R.fl (R.fl (R.fl (a' * a') + R.fl (b' * b')) - R.fl (c' * c'))) (a ^ 2 + b ^ 2 - c ^ 2) := by
  have hu := unit_nonneg R
  have h1 := sized_fl R (sized_add (sized_fl R (sized_mul hu ha ha)) (sized_fl R (sized_mul hu hb hb)))
  have h2 := sized_fl R (sized_mul hu hc hc)
  have h3 := sized_fl R (sized_sub (sized_more hu h1 (show 4 ≤ 15 by norm_num)) h2)
  rw [abs_sq_mul, abs_sq_mul, abs_sq_mul, show a * a + b * b - c * c = a ^ 2 + b ^ 2 - c ^ 2 by ring] at h3
  exact h3

theorem coef_num (R : Rnd u) {a' a b' b c' c m' m M : ℚ} (ha : NearSize u 1 |a| a' a) (hb : NearSize u 1 |b| b' b) (hc : NearSize u 7 |c| c' c)
    (hm : NearSize u 8 M m' m) (x y : ℚ) :
    NearSize u 18 (|c| * M + |a| * |x| + |b| * |y|) (R.fl (R.fl (R.fl (c' * m') - R.fl (a' * x)) - R.fl (b' * y))) (c * m - a * x - b * y) := by
  have hu := unit_nonneg R
  have h1 := sized_fl R (sized_mul hu hc hm)
  have h2 := sized_fl R (sized_mul hu ha (sized_self hu x))
  have h3 := sized_fl R (sized_mul hu hb (sized_self hu y))
  have h4 := sized_fl R (sized_sub h1 (sized_more hu h2 (show 1 + 0 + 1 ≤ 7 + 8 + 1 by norm_num)))
  exact sized_fl R (sized_sub h4 (sized_more hu h3 (show 1 + 0 + 1 ≤ 7 + 8 + 1 + 1 by norm_num)))

theorem coef_con (R : Rnd u) {m' m M : ℚ} (hm : NearSize u 8 M m' m) (x y : ℚ) :
    NearSize u 19 (M ^ 2 + x ^ 2 + y ^ 2) (R.fl (R.fl (R.fl (m' * m') - R.fl (x * x)) - R.fl (y * y))) (m ^ 2 - x ^ 2 - y ^ 2) := by
  have hu := unit_nonneg R
  have h1 := sized_fl R (sized_mul hu hm hm)
  have h2 := sized_fl R (sized_mul hu (sized_self hu x) (sized_self hu x))
  have h3 := sized_fl R (sized_mul hu (sized_self hu y) (sized_self hu y))
  have h4 := sized_fl R (sized_sub h1 (sized_more hu h2 (show 0 + 0 + 1 ≤ 8 + 8 + 1 by norm_num)))
  have h5 := sized_fl R (sized_sub h4 (sized_more hu h3 (show 0 + 0 + 1 ≤ 8 + 8 + 1 + 1 by norm_num)))
  rw [abs_sq_mul, abs_sq_mul, show M * M = M ^ 2 by ring, show m * m - x * x - y * y = m ^ 2 - x ^ 2 - y ^ 2 by ring] at h5
  exact h5

/-- The numbers of the quadratic equation. -/
theorem wallCoef_near (R : Rnd u) (hu2 : u ≤ 1 / 2) (np n : Q2) (p c : Q3) (hz : np.z ≠ n.z) :
    NearSize u 16 ((c.x - p.x) ^ 2 + (c.y - p.y) ^ 2 + coneRise n np p c ^ 2) (wallCoefR R np n p c).abc (slopeDiff n np p c) ∧
    NearSize u 18 (|coneRise n np p c| * (|n.r| + |(p.z - n.z) / (np.z - n.z) * (np.r - n.r)|) + |c.x - p.x| * |p.x| + |c.y - p.y| * |p.y|)
      (wallCoefR R np n p c).num
      (coneRise n np p c * (n.r + (p.z - n.z) / (np.z - n.z) * (np.r - n.r)) - (c.x - p.x) * p.x - (c.y - p.y) * p.y) ∧
    NearSize u 19 ((|n.r| + |(p.z - n.z) / (np.z - n.z) * (np.r - n.r)|) ^ 2 + p.x ^ 2 + p.y ^ 2)
      (wallCoefR R np n p c).con ((n.r + (p.z - n.z) / (np.z - n.z) * (np.r - n.r)) ^ 2 - p.x ^ 2 - p.y ^ 2) := by
  have hu := unit_nonneg R
  have one : ∀ x : ℚ, NearSize u 1 |x| (R.fl x) x := fun x => sized_fl R (sized_self hu x)
  have hi := recip_near R hu2 (sub_ne_zero.2 hz)
  have kz : NearSize u 5 |(c.z - p.z) / (np.z - n.z)| (R.fl (R.fl (c.z - p.z) * R.fl (1 / R.fl (np.z - n.z)))) ((c.z - p.z) / (np.z - n.z)) := by
    have := sized_fl R (sized_mul hu (one (c.z - p.z)) hi)
    rwa [← abs_mul, mul_one_div] at this
  have mz : NearSize u 5 |(p.z - n.z) / (np.z - n.z)| (R.fl (R.fl (p.z - n.z) * R.fl (1 / R.fl (np.z - n.z)))) ((p.z - n.z) / (np.z - n.z)) := by
    have := sized_fl R (sized_mul hu (one (p.z - n.z)) hi)
    rwa [← abs_mul, mul_one_div] at this
  have cc := sized_fl R (sized_mul hu (one (np.r - n.r)) kz)
  rw [← abs_mul] at cc
  change NearSize u 7 |coneRise n np p c| _ (coneRise n np p c) at cc
  have md := sized_fl R (sized_mul hu mz (one (np.r - n.r)))
  rw [← abs_mul] at md
  have m := sized_fl R (sized_add (sized_more hu (sized_self hu n.r) (Nat.zero_le 7)) md)
  have k1 := coef_abc R (one (c.x - p.x)) (one (c.y - p.y)) cc
  have k2 := coef_num R (one (c.x - p.x)) (one (c.y - p.y)) cc m p.x p.y
  have k3 := coef_con R m p.x p.y
  exact ⟨k1, k2, k3⟩

/-! ### roots -/

theorem square_near (R : Rnd u) (hu : u ≤ 1 / 2000) (term q : ℚ) :
    |R.fl (R.fl (term * term) + q) - (term ^ 2 + q)| ≤ 3 * u * (term ^ 2 + |q|) ∧
    |R.fl (R.fl (term * term) + q)| ≤ 101 / 100 * (term ^ 2 + |q|) := by
  have hu0 := unit_nonneg R
  have h1 := R.rel (term * term)
  have h2 := R.rel (R.fl (term * term) + q)
  have h3 := sq_nonneg term
  have e : term * term = term ^ 2 := by ring
  rw [e, abs_of_nonneg h3] at h1
  rw [e] at h2 ⊢
  generalize R.fl (term ^ 2) = s at h1 h2 ⊢
  generalize R.fl (s + q) = f at h2 ⊢
  have hT : 0 ≤ term ^ 2 + |q| := by positivity
  have h4 : |s + q| ≤ (1 + u) * (term ^ 2 + |q|) := by
    have := abs_add_le (s - term ^ 2) (term ^ 2 + q)
    rw [show s - term ^ 2 + (term ^ 2 + q) = s + q by ring] at this
    have h5 := abs_add_le (term ^ 2) q
    rw [abs_of_nonneg h3] at h5
    nlinarith [mul_nonneg hu0 (abs_nonneg q)]
  have h6 : |f - (term ^ 2 + q)| ≤ |f - (s + q)| + |s - term ^ 2| := by
    have := abs_add_le (f - (s + q)) (s - term ^ 2)
    rwa [show f - (s + q) + (s - term ^ 2) = f - (term ^ 2 + q) by ring] at this
  have h7 : u * |s + q| ≤ u * ((1 + u) * (term ^ 2 + |q|)) := mul_le_mul_of_nonneg_left h4 hu0
  have h8 : u * term ^ 2 ≤ u * (term ^ 2 + |q|) := mul_le_mul_of_nonneg_left (by linarith [abs_nonneg q]) hu0
  generalize term ^ 2 + |q| = T at *
  have h9 := mul_nonneg hu0 hT
  have h10 : u * (u * T) ≤ 1 / 2000 * (u * T) := mul_le_mul_of_nonneg_right hu h9
  have h11 : u * T ≤ 1 / 2000 * T := mul_le_mul_of_nonneg_right hu hT
  constructor
  · nlinarith
  · have := abs_add_le (f - (s + q)) (s + q)
    rw [sub_add_cancel] at this
    nlinarith

theorem root_near (R : Rnd u) (hu : u ≤ 1 / 2000) {sq : ℚ → ℚ} (hsq : GoodSqrt u sq) (term q : ℚ) (h : 0 ≤ R.fl (R.fl (term * term) + q)) :
    0 ≤ sq (R.fl (R.fl (term * term) + q)) ∧
    |sq (R.fl (R.fl (term * term) + q)) ^ 2 - (term ^ 2 + q)| ≤ 6 * u * (term ^ 2 + |q|) := by
  have hu0 := unit_nonneg R
  obtain ⟨h1, h2⟩ := square_near R hu term q
  obtain ⟨h3, h4, h5⟩ := hsq _ h
  rw [abs_of_nonneg h] at h2
  generalize R.fl (R.fl (term * term) + q) = f at *
  refine ⟨h3, ?_⟩
  have hT : 0 ≤ term ^ 2 + |q| := by positivity
  generalize term ^ 2 + |q| = T at *
  generalize sq f = s at *
  have h6 : u * f ≤ u * (101 / 100 * T) := mul_le_mul_of_nonneg_left h2 hu0
  have h7 : u * (u * f) ≤ 1 / 2000 * (u * f) := mul_le_mul_of_nonneg_right hu (mul_nonneg hu0 h)
  have h8 : 0 ≤ u * T := mul_nonneg hu0 hT
  obtain ⟨l1, l2⟩ := abs_le.1 h1
  rw [abs_le]
  constructor <;> nlinarith

/-- Two points where the quadratic function clearly has different signs. -/
theorem roots_hit (R : Rnd u) (h1 : R.Is 1) (hu : u ≤ 1 / 2000) {sq : ℚ → ℚ} (hsq : GoodSqrt u sq) (term q a b : ℚ) (ha0 : 0 ≤ a) (ha1 : a ≤ 1)
    (hb0 : 0 ≤ b) (hb1 : b ≤ 1) (ha : 6 * u * (term ^ 2 + |q|) < a ^ 2 - 2 * term * a - q)
    (hb : b ^ 2 - 2 * term * b - q < -(6 * u * (term ^ 2 + |q|))) : wallRootsR R sq term q = true := by
  have hu0 := unit_nonneg R
  have hT : 0 ≤ u * (term ^ 2 + |q|) := mul_nonneg hu0 (by positivity)
  obtain ⟨l1, -⟩ := abs_le.1 (square_near R hu term q).1
  have hs : 0 ≤ R.fl (R.fl (term * term) + q) := by nlinarith [sq_nonneg (b - term)]
  obtain ⟨r0, r1⟩ := root_near R hu hsq term q hs
  unfold wallRootsR
  rw [if_neg (not_lt.2 hs)]
  generalize sq (R.fl (R.fl (term * term) + q)) = s at r0 r1 ⊢
  obtain ⟨r2, r3⟩ := abs_le.1 r1
  simp only [decide_eq_true_iff]
  have up : s ≤ |a - term| := by
    refine abs_le_of_sq_le_sq' ?_ (abs_nonneg _) |>.2
    rw [sq_abs]
    nlinarith
  have down : |b - term| ≤ s := by
    refine abs_le_of_sq_le_sq ?_ r0
    nlinarith
  have hfl : ∀ x, 0 ≤ x → x ≤ 1 → R.fl x ≥ 0 ∧ R.fl x ≤ 1 := by
    intro x hx0 hx1
    refine ⟨?_, ?_⟩
    · have := R.mono 0 x hx0
      have h0 := R.rel 0
      rw [abs_zero, mul_zero, sub_zero] at h0
      rwa [abs_nonpos_iff.1 h0] at this
    · have := R.mono x 1 hx1
      rwa [h1] at this
  have hab : 0 < (a - b) * (a + b - 2 * term) := by nlinarith
  rcases lt_trichotomy a b with h | h | h
  · right
    have h2 : a + b - 2 * term < 0 := by
      by_contra hc
      have := mul_nonneg (show 0 ≤ b - a by linarith) (not_lt.1 hc)
      nlinarith
    rw [abs_of_neg (by linarith)] at up
    have := neg_abs_le (b - term)
    exact hfl _ (by linarith) (by linarith)
  · rw [h] at hab; linarith
  · left
    have h2 : 0 < a + b - 2 * term := by
      by_contra hc
      have := mul_nonneg (show 0 ≤ a - b by linarith) (neg_nonneg.2 (not_lt.1 hc))
      nlinarith
    rw [abs_of_pos (by linarith)] at up
    have := le_abs_self (b - term)
    exact hfl _ (by linarith) (by linarith)

/-- A root that is found nearly is one. -/
theorem roots_alarm (R : Rnd u) (hu : u ≤ 1 / 2000) {sq : ℚ → ℚ} (hsq : GoodSqrt u sq) (term q : ℚ) (h : wallRootsR R sq term q = true) :
    ∃ t, 0 ≤ t ∧ t ≤ 1 ∧ |t ^ 2 - 2 * term * t - q| ≤ 14 * u * (1 + (term ^ 2 + |q|)) := by
  have hu0 := unit_nonneg R
  unfold wallRootsR at h
  by_cases hs : R.fl (R.fl (term * term) + q) < 0
  · rw [if_pos hs] at h; cases h
  rw [if_neg hs] at h
  obtain ⟨r0, r1⟩ := root_near R hu hsq term q (not_lt.1 hs)
  generalize sq (R.fl (R.fl (term * term) + q)) = s at r0 r1 h
  simp only [decide_eq_true_iff] at h
  have key : ∀ e : ℚ, e ^ 2 = s ^ 2 → 0 ≤ R.fl (term + e) → R.fl (term + e) ≤ 1 →
      |R.fl (term + e) ^ 2 - 2 * term * R.fl (term + e) - q| ≤ 14 * u * (1 + (term ^ 2 + |q|)) := by
    intro e he h0 h1
    have hr := R.rel (term + e)
    generalize R.fl (term + e) = t at hr h0 h1 ⊢
    obtain ⟨τ, hτ⟩ : ∃ τ, τ = term + e := ⟨_, rfl⟩
    rw [← hτ] at hr
    have hτ2 : |τ| ≤ 2 := by
      have := abs_sub_abs_le_abs_sub τ t
      rw [abs_sub_comm τ t, abs_of_nonneg h0] at this
      nlinarith [mul_le_mul_of_nonneg_right hu (abs_nonneg τ)]
    have hd : |t - τ| ≤ 2 * u := by
      refine le_trans hr ?_
      nlinarith
    have e1 : t ^ 2 - 2 * term * t - q = (s ^ 2 - (term ^ 2 + q)) + (t - τ) * (t + τ - 2 * term) := by
      rw [← he, hτ]; ring
    have h3 : |t + τ - 2 * term| ≤ 4 + term ^ 2 := by
      rw [abs_le]
      obtain ⟨a1, a2⟩ := abs_le.1 hτ2
      constructor
      · nlinarith [sq_nonneg (term - 1)]
      · nlinarith [sq_nonneg (term + 1)]
    have h4 : |(t - τ) * (t + τ - 2 * term)| ≤ 2 * u * (4 + term ^ 2) := by
      rw [abs_mul]
      exact mul_le_mul hd h3 (abs_nonneg _) (by linarith)
    rw [e1]
    refine le_trans (abs_add_le _ _) (le_trans (add_le_add r1 h4) ?_)
    nlinarith [mul_nonneg hu0 (abs_nonneg q), mul_nonneg hu0 (sq_nonneg term)]
  rcases h with ⟨h0, h1⟩ | ⟨h0, h1⟩
  · exact ⟨_, h0, h1, key s rfl h0 h1⟩
  · rw [sub_eq_add_neg] at h0 h1
    exact ⟨_, h0, h1, key (-s) (by ring) h0 h1⟩

/-! ### a tile -/

theorem sized_bound (R : Rnd u) (hu : u ≤ 1 / 2000) {A x' x : ℚ} {m : ℕ} (hm : m ≤ 39) (h : NearSize u m A x' x) : |x' - x| ≤ 40 * u * A :=
  le_trans h.2 (mul_le_mul_of_nonneg_right (le_trans (by linarith [pow_mono (unit_nonneg R) hm]) (C143_units R hu)) h.nonneg)

theorem sized_abs (R : Rnd u) (hu : u ≤ 1 / 2000) {A x' x : ℚ} {m : ℕ} (hm : m ≤ 39) (h : NearSize u m A x' x) : |x'| ≤ 102 / 100 * A := by
  have h1 := sized_bound R hu hm h
  have h2 := abs_add_le (x' - x) x
  rw [sub_add_cancel] at h2
  have h3 := mul_le_mul_of_nonneg_right hu h.nonneg
  linarith [h.1]

/-- The equation that is solved is near the right one. -/
theorem wall_link (R : Rnd u) (hu : u ≤ 1 / 2000) {Sa SN SQ W abc' abc num' N con' Q : ℚ} (ka : NearSize u 16 Sa abc' abc)
    (kn : NearSize u 18 SN num' N) (kq : NearSize u 19 SQ con' Q) (hW : Sa + SQ = W) (hN : 2 * SN ≤ W) (h0 : abc ≠ 0) (hc : 200 * u * W ≤ |abc|) :
    abc' ≠ 0 ∧ ∃ A : ℚ, 0 < A * abc ∧
      (∀ t, 0 ≤ t → t ≤ 1 → |A * (t ^ 2 - 2 * R.fl (num' * R.fl (1 / abc')) * t - R.fl (con' * R.fl (1 / abc'))) - (abc * t ^ 2 - 2 * N * t - Q)| ≤
        80 * u * (W ^ 2 / |abc|)) ∧
      |A| * (1 + (R.fl (num' * R.fl (1 / abc')) ^ 2 + |R.fl (con' * R.fl (1 / abc'))|)) ≤ 3 * (W ^ 2 / |abc|) := by
  have hu0 := unit_nonneg R
  have habc : 0 < |abc| := abs_pos.2 h0
  have hSa := ka.nonneg
  have hSQ := kq.nonneg
  have hSN := kn.nonneg
  have hne : abc' ≠ 0 := by
    rintro rfl
    have h1 := sized_bound R hu (by norm_num) ka
    rw [zero_sub, abs_neg] at h1
    nlinarith [mul_nonneg hu0 hSQ, mul_nonneg hu0 hSa]
  refine ⟨hne, ?_⟩
  obtain ⟨hi, hA⟩ := recip_rel hu0 (by linarith) hne (R.rel (1 / abc'))
  generalize R.fl (1 / abc') = i at hi hA ⊢
  have scaled : ∀ x : ℚ, |R.fl (x * i) * (1 / i) - x| ≤ ((1 + u) ^ 1 - 1) * |x| := by
    intro x
    have h1 := R.rel (x * i)
    have e : R.fl (x * i) * (1 / i) - x = (R.fl (x * i) - x * i) * (1 / i) := by field_simp
    rw [e, abs_mul, pow_one, add_sub_cancel_left]
    refine le_trans (mul_le_mul_of_nonneg_right h1 (abs_nonneg _)) ?_
    rw [mul_assoc, ← abs_mul, show x * i * (1 / i) = x by field_simp]
  have ka' := sized_rel hu0 ka hA
  have kn' := sized_rel hu0 kn (scaled num')
  have kq' := sized_rel hu0 kq (scaled con')
  generalize R.fl (num' * i) = term at kn' ⊢
  generalize R.fl (con' * i) = q at kq' ⊢
  have hA0 : (1 / i : ℚ) ≠ 0 := one_div_ne_zero hi
  generalize (1 / i : ℚ) = A at ka' kn' kq' hA0
  have ba := sized_bound R hu (by norm_num) ka'
  have bn := sized_bound R hu (by norm_num) kn'
  have bq := sized_bound R hu (by norm_num) kq'
  have aa := sized_abs R hu (by norm_num) ka'
  have an := sized_abs R hu (by norm_num) kn'
  have aq := sized_abs R hu (by norm_num) kq'
  have hle : |abc| ≤ Sa := ka.1
  clear ka kn kq ka' kn' kq' hA scaled
  have hW0 : 0 ≤ W := by linarith
  have hWE : W ≤ W ^ 2 / |abc| := by
    rw [le_div_iff₀ habc]
    nlinarith
  have h5 : |A - abc| ≤ |abc| / 5 := by
    refine le_trans ba ?_
    nlinarith [mul_nonneg hu0 hSQ]
  have hA4 : 4 / 5 * |abc| ≤ |A| := by
    have h3 := abs_sub_abs_le_abs_sub abc A
    rw [abs_sub_comm] at h3
    linarith
  have hApos : 0 < |A| := by linarith
  obtain ⟨E, hE⟩ : ∃ E, E = W ^ 2 / |abc| := ⟨_, rfl⟩
  rw [← hE] at hWE ⊢
  refine ⟨A, ?_, ?_, ?_⟩
  · rcases lt_or_gt_of_ne h0 with h | h
    · rw [abs_of_neg h] at h5
      have := (abs_le.1 h5).2
      exact mul_pos_of_neg_of_neg (by linarith) h
    · rw [abs_of_pos h] at h5
      have := (abs_le.1 h5).1
      exact mul_pos (by linarith) h
  · intro t t0 t1
    have e : A * (t ^ 2 - 2 * term * t - q) - (abc * t ^ 2 - 2 * N * t - Q) = (A - abc) * t ^ 2 - 2 * ((term * A - N) * t) - (q * A - Q) := by ring
    have t2 : t ^ 2 ≤ 1 := pow_le_one₀ t0 t1
    have m1 : |(A - abc) * t ^ 2| ≤ |A - abc| := by
      rw [abs_mul, abs_of_nonneg (sq_nonneg t)]
      exact mul_le_of_le_one_right (abs_nonneg _) t2
    have m2 : |2 * ((term * A - N) * t)| ≤ 2 * |term * A - N| := by
      rw [abs_mul, abs_mul, abs_two, abs_of_nonneg t0]
      exact mul_le_mul_of_nonneg_left (mul_le_of_le_one_right (abs_nonneg _) t1) (by norm_num)
    rw [e]
    refine le_trans (abs_sub _ _) (le_trans (add_le_add_left (abs_sub _ _) _) ?_)
    have h6 : u * (2 * SN) ≤ u * W := mul_le_mul_of_nonneg_left hN hu0
    have h7 : u * W ≤ u * E := mul_le_mul_of_nonneg_left hWE hu0
    have h8 : u * Sa + u * SQ = u * W := by rw [← hW]; ring
    linarith
  · have h6 : |A| * term ^ 2 ≤ 34 / 100 * E := by
      have e : |A| * term ^ 2 = (term * A) ^ 2 / |A| := by
        rw [eq_div_iff hApos.ne', mul_pow, ← sq_abs A]; ring
      have h7 : (term * A) ^ 2 ≤ (51 / 100 * W) ^ 2 := by
        rw [← sq_abs]
        exact pow_le_pow_left₀ (abs_nonneg _) (by linarith) 2
      rw [e, div_le_iff₀ hApos]
      have h8 : W ^ 2 = E * |abc| := by rw [hE, div_mul_cancel₀ _ habc.ne']
      have h9 : E * (4 / 5 * |abc|) ≤ E * |A| := mul_le_mul_of_nonneg_left hA4 (by linarith)
      nlinarith
    have h7 : |A| * |q| ≤ 102 / 100 * SQ := by rw [← abs_mul, mul_comm]; exact aq
    nlinarith

theorem gap_quadratic (v w : Q2) (p c : Q3) (t : ℚ) :
    gapAt v w p c t = slopeDiff v w p c * t ^ 2 -
      2 * (coneRise v w p c * (v.r + (p.z - v.z) / (w.z - v.z) * (w.r - v.r)) - (c.x - p.x) * p.x - (c.y - p.y) * p.y) * t -
      ((v.r + (p.z - v.z) / (w.z - v.z) * (w.r - v.r)) ^ 2 - p.x ^ 2 - p.y ^ 2) := by
  simp only [gapAt, coneGap, onSegment, slopeDiff, coneRise]
  ring

theorem size_product (c M a x b y : ℚ) : 2 * (|c| * M + |a| * |x| + |b| * |y|) ≤ a ^ 2 + b ^ 2 + c ^ 2 + (M ^ 2 + x ^ 2 + y ^ 2) := by
  rw [← sq_abs a, ← sq_abs b, ← sq_abs c, ← sq_abs x, ← sq_abs y]
  nlinarith [sq_nonneg (|c| - M), sq_nonneg (|a| - |x|), sq_nonneg (|b| - |y|)]

theorem tile_link (R : Rnd u) (hu : u ≤ 1 / 2000) (v w : Q2) (p c : Q3) (hz : v.z ≠ w.z) (h0 : slopeDiff v w p c ≠ 0)
    (hc : 200 * u * wallSize v w p c ≤ |slopeDiff v w p c|) :
    ∃ term q A : ℚ, (∀ sq, tileHitR R sq w v p c = wallRootsR R sq term q) ∧ 0 < A * slopeDiff v w p c ∧
      (∀ t, 0 ≤ t → t ≤ 1 → |A * (t ^ 2 - 2 * term * t - q) - gapAt v w p c t| ≤ 80 * u * (wallSize v w p c ^ 2 / |slopeDiff v w p c|)) ∧
      |A| * (1 + (term ^ 2 + |q|)) ≤ 3 * (wallSize v w p c ^ 2 / |slopeDiff v w p c|) := by
  obtain ⟨k1, k2, k3⟩ := wallCoef_near R (by linarith) w v p c (fun h => hz h.symm)
  obtain ⟨hne, A, hA, hg, hs⟩ := wall_link R hu k1 k2 k3 (W := wallSize v w p c) (by unfold wallSize; ring)
    (le_trans (size_product _ _ _ _ _ _) (le_of_eq (by unfold wallSize; ring))) h0 hc
  refine ⟨_, _, A, fun sq => ?_, hA, fun t t0 t1 => ?_, hs⟩
  · unfold tileHitR
    rw [if_neg (fun h => hz h.symm)]
    simp only
    rw [if_neg hne]
  · rw [gap_quadratic]
    exact hg t t0 t1

/-- A segment with a point clearly outside and a point clearly inside the cone of a sloping tile. -/
theorem tile_hit (R : Rnd u) (h1 : R.Is 1) (hu : u ≤ 1 / 2000) {sq : ℚ → ℚ} (hsq : GoodSqrt u sq) (v w : Q2) (p c : Q3) (hz : v.z ≠ w.z)
    (h0 : slopeDiff v w p c ≠ 0) (hc : 200 * u * wallSize v w p c ≤ |slopeDiff v w p c|) (s t : ℚ) (s0 : 0 ≤ s) (s1 : s ≤ 1) (t0 : 0 ≤ t) (t1 : t ≤ 1)
    (hs : wallMargin u v w p c < gapAt v w p c s) (ht : gapAt v w p c t < -wallMargin u v w p c) : tileHitR R sq w v p c = true := by
  obtain ⟨term, q, A, hh, hA, hg, hE⟩ := tile_link R hu v w p c hz h0 hc
  have hu0 := unit_nonneg R
  rw [hh]
  unfold wallMargin at hs ht
  generalize wallSize v w p c ^ 2 / |slopeDiff v w p c| = E at *
  have g1 := abs_le.1 (hg s s0 s1)
  have g2 := abs_le.1 (hg t t0 t1)
  generalize gapAt v w p c s = gs at *
  generalize gapAt v w p c t = gt at *
  have hT : 0 ≤ term ^ 2 + |q| := by positivity
  have hAT : |A| * (6 * u * (term ^ 2 + |q|)) ≤ 18 * u * E := by
    have : 6 * u * (|A| * (1 + (term ^ 2 + |q|))) ≤ 6 * u * (3 * E) := mul_le_mul_of_nonneg_left hE (by linarith)
    nlinarith [mul_nonneg hu0 (abs_nonneg A)]
  have huE : 0 ≤ u * E := by
    have := mul_nonneg hu0 (mul_nonneg (abs_nonneg A) (add_nonneg zero_le_one hT))
    nlinarith
  rcases lt_or_gt_of_ne (show A ≠ 0 by rintro rfl; rw [zero_mul] at hA; exact lt_irrefl _ hA) with h | h
  · rw [abs_of_neg h] at hAT
    refine roots_hit R h1 hu hsq term q t s t0 t1 s0 s1 ?_ ?_
    · by_contra hcon
      have := mul_le_mul_of_nonneg_left (not_lt.1 hcon) (neg_nonneg.2 h.le)
      nlinarith
    · by_contra hcon
      have := mul_le_mul_of_nonneg_left (not_lt.1 hcon) (neg_nonneg.2 h.le)
      nlinarith
  · rw [abs_of_pos h] at hAT
    refine roots_hit R h1 hu hsq term q s t s0 s1 t0 t1 ?_ ?_
    · by_contra hcon
      have := mul_le_mul_of_nonneg_left (not_lt.1 hcon) h.le
      nlinarith
    · by_contra hcon
      have := mul_le_mul_of_nonneg_left (not_lt.1 hcon) h.le
      nlinarith

/-- A sloping tile that is reported is nearly met by the segment, or rather its cone. -/
theorem tile_alarm (R : Rnd u) (hu : u ≤ 1 / 2000) {sq : ℚ → ℚ} (hsq : GoodSqrt u sq) (v w : Q2) (p c : Q3) (hz : v.z ≠ w.z)
    (h0 : slopeDiff v w p c ≠ 0) (hc : 200 * u * wallSize v w p c ≤ |slopeDiff v w p c|) (h : tileHitR R sq w v p c = true) :
    ∃ t, 0 ≤ t ∧ t ≤ 1 ∧ |gapAt v w p c t| ≤ wallMargin u v w p c := by
  obtain ⟨term, q, A, hh, hA, hg, hE⟩ := tile_link R hu v w p c hz h0 hc
  have hu0 := unit_nonneg R
  rw [hh] at h
  obtain ⟨t, t0, t1, ht⟩ := roots_alarm R hu hsq term q h
  refine ⟨t, t0, t1, ?_⟩
  unfold wallMargin
  have g := hg t t0 t1
  generalize wallSize v w p c ^ 2 / |slopeDiff v w p c| = E at *
  have h1 : |A * (t ^ 2 - 2 * term * t - q)| ≤ 14 * u * (3 * E) := by
    rw [abs_mul]
    refine le_trans (mul_le_mul_of_nonneg_left ht (abs_nonneg A)) ?_
    have := mul_le_mul_of_nonneg_left hE (show 0 ≤ 14 * u by linarith)
    linarith
  have h2 := abs_sub_abs_le_abs_sub (gapAt v w p c t) (A * (t ^ 2 - 2 * term * t - q))
  rw [abs_sub_comm] at h2
  have huE : 0 ≤ u * E := by
    have := le_trans (abs_nonneg _) h1
    linarith
  linarith

/-! ### a wall -/

/-- `v` and `w` are consecutive vertices of the closed wall. -/
def TileQ (dom : List Q2) (v w : Q2) : Prop := SideQ dom v w ∨ (dom.getLast? = some v ∧ dom.head? = some w)

/-- The tile is looked at: not excluded as part of the outer wall, and not wholly above or below both ends of the segment. -/
def ConsideredQ (axisR : ℚ) (outer : Bool) (p0 p1 : Q3) (v w : Q2) : Prop :=
  (outer = true ∨ v.r ≤ axisR ∨ w.r ≤ axisR) ∧
  (p0.z ≤ v.z ∨ p1.z ≤ v.z ∨ p0.z ≤ w.z ∨ p1.z ≤ w.z) ∧
  (v.z ≤ p0.z ∨ v.z ≤ p1.z ∨ w.z ≤ p0.z ∨ w.z ≤ p1.z)

theorem tileTestR_iff (R : Rnd u) (sq : ℚ → ℚ) (axisR : ℚ) (outer : Bool) (p0 p1 : Q3) (v w : Q2) :
    tileTestR R sq axisR outer p0 p1 v w = true ↔ ConsideredQ axisR outer p0 p1 v w ∧ tileHitR R sq w v p1 p0 = true := by
  unfold tileTestR ConsideredQ
  by_cases h1 : outer = false ∧ v.r > axisR ∧ w.r > axisR
  · rw [if_pos h1]
    simp only [Bool.false_eq_true, false_iff]
    rintro ⟨⟨h | h | h, -⟩, -⟩
    · rw [h1.1] at h; cases h
    · linarith [h1.2.1]
    · linarith [h1.2.2]
  · rw [if_neg h1]
    have h1' : outer = true ∨ v.r ≤ axisR ∨ w.r ≤ axisR := by
      by_contra hc
      push Not at hc
      exact h1 ⟨by simpa using hc.1, hc.2.1, hc.2.2⟩
    by_cases h2 : (v.z < p1.z ∧ w.z < p1.z ∧ v.z < p0.z ∧ w.z < p0.z) ∨ (v.z > p1.z ∧ w.z > p1.z ∧ v.z > p0.z ∧ w.z > p0.z)
    · rw [if_pos h2]
      simp only [Bool.false_eq_true, false_iff]
      rintro ⟨⟨-, ha, hb⟩, -⟩
      rcases h2 with ⟨a, b, c, d⟩ | ⟨a, b, c, d⟩
      · rcases ha with h | h | h | h <;> linarith
      · rcases hb with h | h | h | h <;> linarith
    · rw [if_neg h2]
      have ha : p0.z ≤ v.z ∨ p1.z ≤ v.z ∨ p0.z ≤ w.z ∨ p1.z ≤ w.z := by
        by_contra hc
        push Not at hc
        exact h2 (.inl ⟨hc.2.1, hc.2.2.2, hc.1, hc.2.2.1⟩)
      have hb : v.z ≤ p0.z ∨ v.z ≤ p1.z ∨ w.z ≤ p0.z ∨ w.z ≤ p1.z := by
        by_contra hc
        push Not at hc
        exact h2 (.inr ⟨hc.2.1, hc.2.2.2, hc.1, hc.2.2.1⟩)
      simp only [h1', ha, hb, and_self, true_and]

theorem sideQ_cons {a v w : Q2} {l : List Q2} : SideQ (a :: l) v w ↔ (a = v ∧ l.head? = some w) ∨ SideQ l v w := by
  constructor
  · rintro ⟨i, h1, h2⟩
    cases i with
    | zero =>
      left
      simp only [List.getElem?_cons_zero, Option.some.injEq, zero_add, List.getElem?_cons_succ] at h1 h2
      exact ⟨h1, by rw [List.head?_eq_getElem?]; exact h2⟩
    | succ i =>
      right
      simp only [List.getElem?_cons_succ] at h1 h2
      exact ⟨i, h1, h2⟩
  · rintro (⟨rfl, h⟩ | ⟨i, h1, h2⟩)
    · exact ⟨0, rfl, by rw [List.head?_eq_getElem?] at h; exact h⟩
    · exact ⟨i + 1, h1, h2⟩

theorem tileLoopR_iff (R : Rnd u) (sq : ℚ → ℚ) (axisR : ℚ) (outer : Bool) (p0 p1 : Q3) (first : Q2) : ∀ dom,
    tileLoopR R sq axisR outer p0 p1 first dom = true ↔
      ∃ v w, (SideQ dom v w ∨ (dom.getLast? = some v ∧ w = first)) ∧ tileTestR R sq axisR outer p0 p1 v w = true
  | [] => by
    constructor
    · intro h; cases h
    · rintro ⟨v, w, (⟨i, h, -⟩ | ⟨h, -⟩), -⟩ <;> simp at h
  | [a] => by
    constructor
    · intro h
      exact ⟨a, first, .inr ⟨rfl, rfl⟩, h⟩
    · rintro ⟨v, w, (h | ⟨h, rfl⟩), ht⟩
      · rcases sideQ_cons.1 h with ⟨-, h⟩ | ⟨i, h, -⟩ <;> simp at h
      · simp only [List.getLast?_singleton, Option.some.injEq] at h
        rw [tileLoopR, h]
        exact ht
  | a :: b :: rest => by
    rw [tileLoopR, Bool.or_eq_true, tileLoopR_iff R sq axisR outer p0 p1 first (b :: rest)]
    constructor
    · rintro (h | ⟨v, w, hs, ht⟩)
      · exact ⟨a, b, .inl ⟨0, rfl, rfl⟩, h⟩
      · refine ⟨v, w, ?_, ht⟩
        rcases hs with hs | ⟨hs, rfl⟩
        · exact .inl (sideQ_cons.2 (.inr hs))
        · exact .inr ⟨by rw [List.getLast?_cons_cons]; exact hs, rfl⟩
    · rintro ⟨v, w, hs, ht⟩
      rcases hs with hs | ⟨hs, hw⟩
      · rcases sideQ_cons.1 hs with ⟨rfl, h⟩ | h
        · simp only [List.head?_cons, Option.some.injEq] at h
          rw [← h] at ht
          exact .inl ht
        · exact .inr ⟨v, w, .inl h, ht⟩
      · rw [List.getLast?_cons_cons] at hs
        exact .inr ⟨v, w, .inr ⟨hs, hw⟩, ht⟩

theorem intersects3DR_iff (R : Rnd u) (sq : ℚ → ℚ) (axis : Q2) (dom : List Q2) (p0 p1 : Q3) (outer : Bool) :
    intersects3DR R sq axis dom p0 p1 outer = true ↔
      ∃ v w, TileQ dom v w ∧ ConsideredQ axis.r outer p0 p1 v w ∧ tileHitR R sq w v p1 p0 = true := by
  cases dom with
  | nil =>
    simp only [intersects3DR, Bool.false_eq_true, false_iff]
    rintro ⟨v, w, (⟨i, h1, -⟩ | ⟨h1, -⟩), -⟩ <;> simp at h1
  | cons a rest =>
    rw [intersects3DR, tileLoopR_iff]
    constructor
    · rintro ⟨v, w, hs, ht⟩
      refine ⟨v, w, ?_, (tileTestR_iff R sq axis.r outer p0 p1 v w).1 ht⟩
      rcases hs with hs | ⟨hs, rfl⟩
      · exact .inl hs
      · exact .inr ⟨hs, rfl⟩
    · rintro ⟨v, w, hs, ht⟩
      refine ⟨v, w, ?_, (tileTestR_iff R sq axis.r outer p0 p1 v w).2 ht⟩
      rcases hs with hs | ⟨h1, h2⟩
      · exact .inl hs
      · simp only [List.head?_cons, Option.some.injEq] at h2
        exact .inr ⟨h1, h2.symm⟩

/-- **C144** A line of sight with a point clearly outside and a point clearly inside the cone of a considered tile, which is not nearly as steep
as the line, is reported to meet the wall. -/
theorem C144_hit (R : Rnd u) (h1 : R.Is 1) (hu : u ≤ 1 / 2000) {sq : ℚ → ℚ} (hsq : GoodSqrt u sq) (axis : Q2) (dom : List Q2) (p0 p1 : Q3)
    (outer : Bool) (v w : Q2) (ht : TileQ dom v w) (hcon : ConsideredQ axis.r outer p0 p1 v w) (hz : v.z ≠ w.z) (h0 : slopeDiff v w p1 p0 ≠ 0)
    (hc : 200 * u * wallSize v w p1 p0 ≤ |slopeDiff v w p1 p0|) (s t : ℚ) (s0 : 0 ≤ s) (s1 : s ≤ 1) (t0 : 0 ≤ t) (t1 : t ≤ 1)
    (hs : wallMargin u v w p1 p0 < gapAt v w p1 p0 s) (htt : gapAt v w p1 p0 t < -wallMargin u v w p1 p0) :
    intersects3DR R sq axis dom p0 p1 outer = true :=
  (intersects3DR_iff R sq axis dom p0 p1 outer).2 ⟨v, w, ht, hcon, tile_hit R h1 hu hsq v w p1 p0 hz h0 hc s t s0 s1 t0 t1 hs htt⟩

/-- **C144** When the wall is reported to be met, then a considered tile is level, or nearly as steep as the line, or there is a point of the
line of sight which is nearly on the cone of the tile. -/
theorem C144_alarm (R : Rnd u) (hu : u ≤ 1 / 2000) {sq : ℚ → ℚ} (hsq : GoodSqrt u sq) (axis : Q2) (dom : List Q2) (p0 p1 : Q3)
    (outer : Bool) (h : intersects3DR R sq axis dom p0 p1 outer = true) :
    ∃ v w, TileQ dom v w ∧ ConsideredQ axis.r outer p0 p1 v w ∧
      (v.z = w.z ∨ slopeDiff v w p1 p0 = 0 ∨ |slopeDiff v w p1 p0| < 200 * u * wallSize v w p1 p0 ∨
        ∃ t, 0 ≤ t ∧ t ≤ 1 ∧ |gapAt v w p1 p0 t| ≤ wallMargin u v w p1 p0) := by
  obtain ⟨v, w, ht, hc, hh⟩ := (intersects3DR_iff R sq axis dom p0 p1 outer).1 h
  refine ⟨v, w, ht, hc, ?_⟩
  by_cases hz : v.z = w.z
  · exact .inl hz
  by_cases h0 : slopeDiff v w p1 p0 = 0
  · exact .inr (.inl h0)
  by_cases hcl : |slopeDiff v w p1 p0| < 200 * u * wallSize v w p1 p0
  · exact .inr (.inr (.inl hcl))
  · exact .inr (.inr (.inr (tile_alarm R hu hsq v w p1 p0 hz h0 (not_lt.1 hcl) hh)))

/-! ### the exact test -/

/-- The same for a fraction that is a real number. -/
noncomputable def gapReal (v w : Pt) (p c : P3) (t : ℝ) : ℝ :=
  coneGap v.r v.z w.r w.z (p.x + t * (c.x - p.x)) (p.y + t * (c.y - p.y)) (p.z + t * (c.z - p.z))

theorem gapReal_cast (v w : Q2) (p c : Q3) (t : ℚ) : gapReal v.real w.real p.real c.real (t : ℝ) = ((gapAt v w p c t : ℚ) : ℝ) := by
  simp only [gapReal, gapAt, coneGap, onSegment, Q2.real, Q3.real]
  push_cast
  rfl

/-- Meeting the cone is having a point where the gap is zero. -/
theorem meetsCone_iff (p0 p1 : P3) (v w : Pt) (hz : v.z ≠ w.z) : MeetsCone p0 p1 v w ↔ ∃ t : ℝ, 0 ≤ t ∧ t ≤ 1 ∧ gapReal v w p1 p0 t = 0 := by
  have hd : w.z - v.z ≠ 0 := sub_ne_zero.2 (fun h => hz h.symm)
  constructor
  · rintro ⟨t, s, t0, t1, e1, e2⟩
    refine ⟨1 - t, by linarith, by linarith, ?_⟩
    simp only [along, between] at e1 e2
    have hs : (p1.z + (1 - t) * (p0.z - p1.z) - v.z) / (w.z - v.z) = s := by
      rw [div_eq_iff hd]
      linarith
    simp only [gapReal, coneGap]
    rw [hs]
    linear_combination e2
  · rintro ⟨t, t0, t1, h⟩
    refine ⟨1 - t, (p1.z + t * (p0.z - p1.z) - v.z) / (w.z - v.z), by linarith, by linarith, ?_, ?_⟩
    · simp only [along, between]
      have := div_mul_cancel₀ (p1.z + t * (p0.z - p1.z) - v.z) hd
      linarith
    · simp only [along, between]
      simp only [gapReal, coneGap] at h
      linear_combination h

/-- **C144** Points on both sides of the cone: the segment meets it. -/
theorem C144_between (v w : Q2) (p0 p1 : Q3) (hz : v.z ≠ w.z) (s t : ℚ) (s0 : 0 ≤ s) (s1 : s ≤ 1) (t0 : 0 ≤ t) (t1 : t ≤ 1)
    (hs : 0 < gapAt v w p1 p0 s) (ht : gapAt v w p1 p0 t < 0) : MeetsCone p0.real p1.real v.real w.real := by
  rw [meetsCone_iff _ _ _ _ (by simpa [Q2.real] using hz)]
  have hcont : Continuous (gapReal v.real w.real p1.real p0.real) := by
    unfold gapReal coneGap
    fun_prop
  have hmem : (0 : ℝ) ∈ Set.uIcc (gapReal v.real w.real p1.real p0.real (t : ℝ)) (gapReal v.real w.real p1.real p0.real (s : ℝ)) := by
    rw [gapReal_cast, gapReal_cast, Set.mem_uIcc]
    exact .inl ⟨by exact_mod_cast ht.le, by exact_mod_cast hs.le⟩
  obtain ⟨τ, hτ, h0⟩ := intermediate_value_uIcc hcont.continuousOn hmem
  have hsub := Set.uIcc_subset_Icc (a₁ := (t : ℝ)) (b₁ := (s : ℝ)) (a₂ := 0) (b₂ := 1)
    ⟨by exact_mod_cast t0, by exact_mod_cast t1⟩ ⟨by exact_mod_cast s0, by exact_mod_cast s1⟩ hτ
  exact ⟨τ, hsub.1, hsub.2, h0⟩

/-- The tile is sloping, not nearly as steep as the line, and either there are points of the line clearly on both sides of its cone, or all points
are clearly off the cone. -/
def ClearTile (u : ℚ) (p0 p1 : Q3) (v w : Q2) : Prop :=
  v.z ≠ w.z ∧ slopeDiff v w p1 p0 ≠ 0 ∧ 200 * u * wallSize v w p1 p0 ≤ |slopeDiff v w p1 p0| ∧
  ((∃ s t : ℚ, 0 ≤ s ∧ s ≤ 1 ∧ 0 ≤ t ∧ t ≤ 1 ∧ wallMargin u v w p1 p0 < gapAt v w p1 p0 s ∧ gapAt v w p1 p0 t < -wallMargin u v w p1 p0) ∨
    ∀ t : ℝ, 0 ≤ t → t ≤ 1 → (wallMargin u v w p1 p0 : ℝ) < |gapReal v.real w.real p1.real p0.real t|)

theorem margin_nonneg (hu : 0 ≤ u) (v w : Q2) (p c : Q3) : 0 ≤ wallMargin u v w p c := by unfold wallMargin; positivity

theorem clear_tile (R : Rnd u) (h1 : R.Is 1) (hu : u ≤ 1 / 2000) {sq : ℚ → ℚ} (hsq : GoodSqrt u sq) (p0 p1 : Q3) (v w : Q2) (h : ClearTile u p0 p1 v w) :
    tileHitR R sq w v p1 p0 = true ↔ tileHit w.real v.real p1.real p0.real = true := by
  obtain ⟨hz, h0, hc, h⟩ := h
  have hm := margin_nonneg (unit_nonneg R) v w p1 p0
  have hz' : v.real.z ≠ w.real.z := by simpa [Q2.real] using hz
  rw [tileHit_sloping _ _ _ _ hz']
  have hne : ¬ SameSlope p0.real p1.real v.real w.real := by
    intro hs
    apply h0
    have hd : w.z - v.z ≠ 0 := sub_ne_zero.2 (fun h => hz h.symm)
    have hs' : ((p1.x - p0.x) ^ 2 + (p1.y - p0.y) ^ 2) * (w.z - v.z) ^ 2 = ((w.r - v.r) * (p1.z - p0.z)) ^ 2 := by
      have : (((((p1.x - p0.x) ^ 2 + (p1.y - p0.y) ^ 2) * (w.z - v.z) ^ 2 : ℚ)) : ℝ) = ((((w.r - v.r) * (p1.z - p0.z)) ^ 2 : ℚ) : ℝ) := by
        push_cast
        exact hs
      exact_mod_cast this
    unfold slopeDiff coneRise
    field_simp
    linear_combination hs'
  rcases h with ⟨s, t, s0, s1, t0, t1, hs, ht⟩ | h
  · have a := tile_hit R h1 hu hsq v w p1 p0 hz h0 hc s t s0 s1 t0 t1 hs ht
    have b := C144_between v w p0 p1 hz s t s0 s1 t0 t1 (by linarith) (by linarith)
    exact ⟨fun _ => .inr b, fun _ => a⟩
  · constructor
    · intro hh
      obtain ⟨t, t0, t1, ht⟩ := tile_alarm R hu hsq v w p1 p0 hz h0 hc hh
      have := h t (by exact_mod_cast t0) (by exact_mod_cast t1)
      rw [gapReal_cast] at this
      have h2 : wallMargin u v w p1 p0 < |gapAt v w p1 p0 t| := by exact_mod_cast this
      linarith
    · rintro (hh | hh)
      · exact absurd hh hne
      · obtain ⟨t, t0, t1, ht⟩ := (meetsCone_iff _ _ _ _ hz').1 hh
        have := h t t0 t1
        rw [ht, abs_zero] at this
        have h2 : (0 : ℝ) ≤ (wallMargin u v w p1 p0 : ℝ) := by exact_mod_cast hm
        linarith

theorem tileQ_real (dom : List Q2) (v w : Pt) : Tile (dom.map Q2.real) v w ↔ ∃ v' w', TileQ dom v' w' ∧ v'.real = v ∧ w'.real = w := by
  unfold Tile TileQ Side SideQ
  constructor
  · rintro (⟨i, h1, h2⟩ | ⟨h1, h2⟩)
    · rw [List.getElem?_map, Option.map_eq_some_iff] at h1 h2
      obtain ⟨v', a1, a2⟩ := h1
      obtain ⟨w', b1, b2⟩ := h2
      exact ⟨v', w', .inl ⟨i, a1, b1⟩, a2, b2⟩
    · rw [List.getLast?_map, Option.map_eq_some_iff] at h1
      rw [List.head?_map, Option.map_eq_some_iff] at h2
      obtain ⟨v', a1, a2⟩ := h1
      obtain ⟨w', b1, b2⟩ := h2
      exact ⟨v', w', .inr ⟨a1, b1⟩, a2, b2⟩
  · rintro ⟨v', w', (⟨i, h1, h2⟩ | ⟨h1, h2⟩), rfl, rfl⟩
    · exact .inl ⟨i, by rw [List.getElem?_map, h1]; rfl, by rw [List.getElem?_map, h2]; rfl⟩
    · exact .inr ⟨by rw [List.getLast?_map, h1]; rfl, by rw [List.head?_map, h2]; rfl⟩

/-- **C144** If all considered tiles are clear, the test decides as it would with exact arithmetic. -/
theorem C144_agree (R : Rnd u) (h1 : R.Is 1) (hu : u ≤ 1 / 2000) {sq : ℚ → ℚ} (hsq : GoodSqrt u sq) (axis : Q2) (dom : List Q2) (p0 p1 : Q3)
    (outer : Bool) (h : ∀ v w, TileQ dom v w → ConsideredQ axis.r outer p0 p1 v w → ClearTile u p0 p1 v w) :
    intersects3DR R sq axis dom p0 p1 outer = intersects3D axis.real (dom.map Q2.real) p0.real p1.real outer := by
  rw [Bool.eq_iff_iff, intersects3DR_iff, C99_exact]
  have hcons : ∀ v w : Q2, Considered axis.real.r outer p0.real p1.real v.real w.real ↔ ConsideredQ axis.r outer p0 p1 v w := by
    intro v w
    simp only [Considered, ConsideredQ, Q2.real, Q3.real, Rat.cast_le]
  constructor
  · rintro ⟨v, w, ht, hc, hh⟩
    have hcl := h v w ht hc
    have hz' : v.real.z ≠ w.real.z := by simpa [Q2.real] using hcl.1
    have := (clear_tile R h1 hu hsq p0 p1 v w hcl).1 hh
    rw [tileHit_sloping _ _ _ _ hz'] at this
    exact ⟨v.real, w.real, (tileQ_real dom _ _).2 ⟨v, w, ht, rfl, rfl⟩, (hcons v w).2 hc, .inl ⟨hz', this⟩⟩
  · rintro ⟨v', w', ht, hc, hh⟩
    obtain ⟨v, w, htq, rfl, rfl⟩ := (tileQ_real dom _ _).1 ht
    have hc' := (hcons v w).1 hc
    have hcl := h v w htq hc'
    have hz' : v.real.z ≠ w.real.z := by simpa [Q2.real] using hcl.1
    rcases hh with ⟨-, hh⟩ | ⟨hz, -⟩
    · exact ⟨v, w, htq, hc', (clear_tile R h1 hu hsq p0 p1 v w hcl).2 ((tileHit_sloping _ _ _ _ hz').2 hh)⟩
    · exact absurd hz hz'

/-! ### what is needed -/

theorem tileHitR_negative (R : Rnd u) (sq : ℚ → ℚ) (np n : Q2) (p c : Q3) (hz : np.z ≠ n.z) (h0 : (wallCoefR R np n p c).abc ≠ 0)
    (h : R.fl (R.fl (R.fl ((wallCoefR R np n p c).num * R.fl (1 / (wallCoefR R np n p c).abc)) * R.fl ((wallCoefR R np n p c).num * R.fl (1 / (wallCoefR R np n p c).abc))) +
      R.fl ((wallCoefR R np n p c).con * R.fl (1 / (wallCoefR R np n p c).abc))) < 0) : tileHitR R sq np n p c = false := by
  unfold tileHitR
  rw [if_neg hz]
  simp only
  rw [if_neg h0]
  unfold wallRootsR
  simp only
  rw [if_pos h]

/-- **C144** The margin is needed: with `double` a line that touches the wall is not reported, whatever the square root. -/
theorem C144_margin_needed : (∀ sq, intersects3DR (rndBits 52) sq ⟨2, 0⟩ [⟨1, 0⟩, ⟨2, 1⟩] ⟨3 / 2, 1, 1 / 2⟩ ⟨3 / 2, -5, 1 / 2⟩ true = false) ∧
    Hits (Q3.real ⟨3 / 2, 1, 1 / 2⟩) (Q3.real ⟨3 / 2, -5, 1 / 2⟩) (Q2.real ⟨1, 0⟩) (Q2.real ⟨2, 1⟩) := by
  constructor
  · intro sq
    have h1 := tileHitR_negative (rndBits 52) sq ⟨2, 1⟩ ⟨1, 0⟩ ⟨3 / 2, -5, 1 / 2⟩ ⟨3 / 2, 1, 1 / 2⟩ (by norm_num) (by decide +kernel) (by decide +kernel)
    have h2 := tileHitR_negative (rndBits 52) sq ⟨1, 0⟩ ⟨2, 1⟩ ⟨3 / 2, -5, 1 / 2⟩ ⟨3 / 2, 1, 1 / 2⟩ (by norm_num) (by decide +kernel) (by decide +kernel)
    rw [intersects3DR, tileLoopR, tileLoopR, tileTestR, tileTestR, h1, h2]
    simp
  · refine ⟨1 / 6, 1 / 2, by norm_num, by norm_num, by norm_num, by norm_num, ?_, ?_⟩ <;>
      norm_num [along, between, Q2.real, Q3.real]

/-- **C144** That the line and the tile are not nearly equally steep is needed as well: with `double` a line which is everywhere far outside, and
not even as steep as the tile, is reported, whatever the square root. -/
theorem C144_slope_needed : (∀ sq, intersects3DR (rndBits 52) sq ⟨2, 0⟩ [⟨1, 0⟩, ⟨2, 1⟩] ⟨11, 1 / 2 ^ 40, 1⟩ ⟨10, 0, 0⟩ true = true) ∧
    slopeDiff ⟨1, 0⟩ ⟨2, 1⟩ ⟨10, 0, 0⟩ ⟨11, 1 / 2 ^ 40, 1⟩ ≠ 0 ∧ slopeDiff ⟨2, 1⟩ ⟨1, 0⟩ ⟨10, 0, 0⟩ ⟨11, 1 / 2 ^ 40, 1⟩ ≠ 0 ∧
    intersects3D (Q2.real ⟨2, 0⟩) [Q2.real ⟨1, 0⟩, Q2.real ⟨2, 1⟩] (Q3.real ⟨11, 1 / 2 ^ 40, 1⟩) (Q3.real ⟨10, 0, 0⟩) true = false := by
  refine ⟨fun sq => ?_, by norm_num [slopeDiff, coneRise], by norm_num [slopeDiff, coneRise], ?_⟩
  · have h1 : tileHitR (rndBits 52) sq ⟨2, 1⟩ ⟨1, 0⟩ ⟨10, 0, 0⟩ ⟨11, 1 / 2 ^ 40, 1⟩ = true := by
      unfold tileHitR
      rw [if_neg (by norm_num)]
      simp only
      rw [if_pos (by decide +kernel)]
    rw [intersects3DR, tileLoopR, tileTestR, h1]
    norm_num
  · have miss : ∀ v w : Pt, (v = ⟨1, 0⟩ ∧ w = ⟨2, 1⟩) ∨ (v = ⟨2, 1⟩ ∧ w = ⟨1, 0⟩) →
        tileHit w v (Q3.real ⟨10, 0, 0⟩) (Q3.real ⟨11, 1 / 2 ^ 40, 1⟩) = false := by
      intro v w h
      have hz : v.z ≠ w.z := by rcases h with ⟨rfl, rfl⟩ | ⟨rfl, rfl⟩ <;> norm_num
      rw [Bool.eq_false_iff]
      intro hc
      rw [Ne.eq_def] at hz
      rcases (tileHit_sloping _ _ _ _ hz).1 hc with hs | hm
      · rcases h with ⟨rfl, rfl⟩ | ⟨rfl, rfl⟩ <;> norm_num [SameSlope, Q3.real] at hs
      · obtain ⟨t, t0, t1, ht⟩ := (meetsCone_iff _ _ _ _ hz).1 hm
        rcases h with ⟨rfl, rfl⟩ | ⟨rfl, rfl⟩ <;>
        · norm_num [gapReal, coneGap, Q3.real] at ht
          nlinarith [sq_nonneg t]
    have e1 : Q2.real ⟨1, 0⟩ = ⟨1, 0⟩ := by simp [Q2.real]
    have e2 : Q2.real ⟨2, 1⟩ = ⟨2, 1⟩ := by simp [Q2.real]
    rw [e1, e2, intersects3D, tileLoop, tileLoop, tileTest, tileTest, miss _ _ (.inl ⟨rfl, rfl⟩), miss _ _ (.inr ⟨rfl, rfl⟩)]
    simp

/-- A square root as a processor makes it. -/
theorem goodSqrt_exists (hu : 0 < u) (hu1 : u ≤ 1) : ∃ sq, GoodSqrt u sq := by
  have key : ∀ x : ℚ, ∃ s : ℚ, 0 ≤ x → 0 ≤ s ∧ (1 - u) ^ 2 * x ≤ s ^ 2 ∧ s ^ 2 ≤ (1 + u) ^ 2 * x := by
    intro x
    rcases le_or_gt x 0 with h | h
    · exact ⟨0, fun h0 => by rw [le_antisymm h h0]; norm_num⟩
    · have hx : (0 : ℝ) < x := by exact_mod_cast h
      have hr := Real.sqrt_pos.2 hx
      have hu' : (0 : ℝ) < u := by exact_mod_cast hu
      obtain ⟨s, h1, h2⟩ := exists_rat_btwn (show Real.sqrt x < (1 + u) * Real.sqrt x by nlinarith)
      refine ⟨s, fun _ => ?_⟩
      have hsq : Real.sqrt x ^ 2 = x := Real.sq_sqrt hx.le
      have hs : (0 : ℝ) ≤ s := by linarith
      have b1 : (x : ℝ) ≤ s ^ 2 := by rw [← hsq]; exact pow_le_pow_left₀ hr.le h1.le 2
      have b2 : (s : ℝ) ^ 2 ≤ (1 + u) ^ 2 * x := by
        rw [← hsq, ← mul_pow]; exact pow_le_pow_left₀ hs h2.le 2
      have b1' : x ≤ s ^ 2 := by exact_mod_cast b1
      have b2' : s ^ 2 ≤ (1 + u) ^ 2 * x := by exact_mod_cast b2
      have hs' : 0 ≤ s := by exact_mod_cast hs
      refine ⟨hs', le_trans ?_ b1', b2'⟩
      have : (1 - u) ^ 2 ≤ 1 := pow_le_one₀ (by linarith) (by linarith)
      nlinarith
  choose sq hsq using key
  exact ⟨sq, hsq⟩

/-- With `double`, from a point on the axis to one outside. -/
example {sq : ℚ → ℚ} (hsq : GoodSqrt (1 / 2 / 2 ^ 52) sq) :
    intersects3DR (rndBits 52) sq ⟨2, 0⟩ [⟨1, 0⟩, ⟨2, 1⟩] ⟨0, 0, 1 / 2⟩ ⟨3, 0, 1 / 2⟩ true = true := by
  refine C144_hit (rndBits 52) (show (rndBits 52).fl 1 = 1 by decide +kernel) (by norm_num) hsq _ _ _ _ _ ⟨1, 0⟩ ⟨2, 1⟩ (.inl ⟨0, rfl, rfl⟩) ?_ (by norm_num) ?_ ?_ 0 1
    (by norm_num) (by norm_num) (by norm_num) (by norm_num) ?_ ?_
  · exact ⟨.inl rfl, .inr (.inr (.inl (by norm_num))), .inl (by norm_num)⟩
  · norm_num [slopeDiff, coneRise]
  · norm_num [slopeDiff, coneRise, wallSize, abs_of_pos]
  · norm_num [wallMargin, slopeDiff, coneRise, wallSize, abs_of_pos, gapAt, coneGap, onSegment]
  · norm_num [wallMargin, slopeDiff, coneRise, wallSize, abs_of_pos, gapAt, coneGap, onSegment]

/-- **C144** A level tile listed outwards from a positive radius is never reported, with rounded arithmetic as with exact one
(`C47_refuted_horizontal`). -/
theorem C144_level_outward (R : Rnd u) (hu : u < 1) {sq : ℚ → ℚ} (hsq : GoodSqrt u sq) (v w : Q2) (p0 p1 : Q3) (hz : v.z = w.z) (hv : 0 < v.r)
    (hw : v.r < w.r) : tileHitR R sq w v p1 p0 = false := by
  unfold tileHitR
  rw [if_pos hz.symm]
  split
  · rfl
  · split
    · rfl
    · rw [decide_eq_false_iff_not]
      rintro ⟨h, -⟩
      refine absurd h (not_le.2 (R.fl_neg hu (mul_neg_of_neg_of_pos (R.fl_neg hu (div_neg_of_pos_of_neg one_pos (R.fl_neg hu (by linarith))))
        (R.fl_pos hu (add_pos_of_pos_of_nonneg hv (hsq _ ?_).1)))))
      exact R.fl_nonneg (add_nonneg (R.fl_nonneg (mul_self_nonneg _)) (R.fl_nonneg (mul_self_nonneg _)))

/-- **C144** A vertical line through the level of a tile is reported if the distance from the axis is computed to be the radius of the first
end of the tile with the other sign, so the mirrored tile is what is tested. -/
theorem C144_level_mirrored (R : Rnd u) (sq : ℚ → ℚ) (axis : Q2) (dom : List Q2) (outer : Bool) (v w : Q2) (x y z0 z1 : ℚ) (ht : TileQ dom v w)
    (hc : ConsideredQ axis.r outer ⟨x, y, z0⟩ ⟨x, y, z1⟩ v w) (hz : v.z = w.z) (hzz : z0 ≠ z1) (hr : v.r ≠ w.r)
    (hd : v.r = -sq (R.fl (R.fl (R.fl x * R.fl x) + R.fl (R.fl y * R.fl y)))) :
    intersects3DR R sq axis dom ⟨x, y, z0⟩ ⟨x, y, z1⟩ outer = true := by
  refine (intersects3DR_iff R sq axis dom _ _ outer).2 ⟨v, w, ht, hc, ?_⟩
  unfold tileHitR
  rw [if_pos hz.symm, if_neg hzz, if_neg hr]
  simp only [sub_self, R.fl_zero, zero_mul, add_zero]
  have e : v.r + sq (R.fl (R.fl (R.fl x * R.fl x) + R.fl (R.fl y * R.fl y))) = 0 := by rw [hd]; ring
  rw [e, R.fl_zero, mul_zero, R.fl_zero]
  decide

example : ConsideredQ 0 true ⟨2, 0, -1⟩ ⟨2, 0, 1⟩ ⟨-2, 0⟩ ⟨-3, 0⟩ ∧ TileQ [⟨-2, 0⟩, ⟨-3, 0⟩] ⟨-2, 0⟩ ⟨-3, 0⟩ :=
  ⟨⟨.inl rfl, .inl (by norm_num), .inr (.inl (by norm_num))⟩, .inl ⟨0, rfl, rfl⟩⟩

end Softlib
