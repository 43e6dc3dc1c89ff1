/-
C126: linear interpolation of a table with rounding.  Stored values come out unchanged at the nodes; values that are not
negative give a value that is not negative; the result stays between the stored values up to seven roundings, and differs from
that of exact arithmetic by a small multiple of the largest value.
-/
import Verif.Dist.LinearRoundModel
import Verif.Dist.LinearProps
import Verif.General.RoundProps
import Verif.General.RoundEval

namespace Softlib

open General Dist

/-! ### factors near one -/

/-- A product of `k` factors between `1 - u` and `1 + u`. -/
def Factors (u : ℚ) (k : ℕ) (d : ℚ) : Prop := (1 - u) ^ k ≤ d ∧ d ≤ (1 + u) ^ k

theorem fl_factor {u : ℚ} (R : Rnd u) (x : ℚ) : ∃ d, Factors u 1 d ∧ R.fl x = x * d := by
  have hu := R.u_nonneg
  by_cases hx : x = 0
  · exact ⟨1, ⟨by linarith, by linarith⟩, by rw [hx, R.fl_zero, zero_mul]⟩
  · refine ⟨R.fl x / x, ?_, by field_simp⟩
    have := R.rel x
    have h2 : |R.fl x / x - 1| ≤ u := by
      rw [show R.fl x / x - 1 = (R.fl x - x) / x by field_simp, abs_div, div_le_iff₀ (abs_pos.mpr hx)]
      exact this
    rw [abs_le] at h2
    unfold Factors
    constructor <;> linarith [h2.1, h2.2]

theorem factors_pos {u : ℚ} (h1 : u ≤ 1) {k : ℕ} {a : ℚ} (ha : Factors u k a) : 0 ≤ a :=
  le_trans (pow_nonneg (by linarith) k) ha.1

theorem factors_mul {u : ℚ} (h0 : 0 ≤ u) (h1 : u ≤ 1) {j k : ℕ} {a b : ℚ} (ha : Factors u j a) (hb : Factors u k b) :
    Factors u (j + k) (a * b) := by
  have p1 := factors_pos h1 ha
  have p2 := factors_pos h1 hb
  have q1 : (0 : ℚ) ≤ (1 - u) ^ j := pow_nonneg (by linarith) j
  have q2 : (0 : ℚ) ≤ (1 - u) ^ k := pow_nonneg (by linarith) k
  have q3 : (0 : ℚ) ≤ (1 + u) ^ j := pow_nonneg (by linarith) j
  refine ⟨?_, ?_⟩
  · rw [pow_add]; exact mul_le_mul ha.1 hb.1 q2 p1
  · rw [pow_add]; exact mul_le_mul ha.2 hb.2 p2 q3

theorem factors_mono {u : ℚ} (h0 : 0 ≤ u) (h1 : u ≤ 1) {j k : ℕ} (hjk : j ≤ k) {a : ℚ} (ha : Factors u j a) : Factors u k a :=
  ⟨le_trans (pow_le_pow_of_le_one (by linarith) (by linarith) hjk) ha.1,
    le_trans ha.2 (pow_le_pow_right₀ (by linarith) hjk)⟩

/-- The sum of the four products: each carries at most seven roundings. -/
theorem cellSumR_factors {u : ℚ} (R : Rnd u) (h1 : u ≤ 1) (t v z00 z10 z01 z11 : ℚ) : ∃ d0 d1 d2 d3, Factors u 7 d0 ∧ Factors u 7 d1 ∧
    Factors u 7 d2 ∧ Factors u 7 d3 ∧ cellSumR R t v z00 z10 z01 z11 =
      (1 - t) * (1 - v) * z00 * d0 + t * (1 - v) * z10 * d1 + (1 - t) * v * z01 * d2 + t * v * z11 * d3 := by
  have h0 := R.u_nonneg
  unfold cellSumR
  obtain ⟨a, ha, ea⟩ := fl_factor R (1 - t)
  obtain ⟨b, hb, eb⟩ := fl_factor R (1 - v)
  rw [ea, eb]
  obtain ⟨c0, hc0, e0⟩ := fl_factor R ((1 - t) * a * ((1 - v) * b))
  obtain ⟨c1, hc1, e1⟩ := fl_factor R (t * ((1 - v) * b))
  obtain ⟨c2, hc2, e2⟩ := fl_factor R ((1 - t) * a * v)
  obtain ⟨c3, hc3, e3⟩ := fl_factor R (t * v)
  rw [e0, e1, e2, e3]
  obtain ⟨w0, hw0, g0⟩ := fl_factor R ((1 - t) * a * ((1 - v) * b) * c0 * z00)
  obtain ⟨w1, hw1, g1⟩ := fl_factor R (t * ((1 - v) * b) * c1 * z10)
  obtain ⟨w2, hw2, g2⟩ := fl_factor R ((1 - t) * a * v * c2 * z01)
  obtain ⟨w3, hw3, g3⟩ := fl_factor R (t * v * c3 * z11)
  rw [g0, g1, g2, g3]
  obtain ⟨s1, hs1, k1⟩ := fl_factor R ((1 - t) * a * ((1 - v) * b) * c0 * z00 * w0 + t * ((1 - v) * b) * c1 * z10 * w1)
  rw [k1]
  obtain ⟨s2, hs2, k2⟩ := fl_factor R (((1 - t) * a * ((1 - v) * b) * c0 * z00 * w0 + t * ((1 - v) * b) * c1 * z10 * w1) * s1 +
    (1 - t) * a * v * c2 * z01 * w2)
  rw [k2]
  obtain ⟨s3, hs3, k3⟩ := fl_factor R ((((1 - t) * a * ((1 - v) * b) * c0 * z00 * w0 + t * ((1 - v) * b) * c1 * z10 * w1) * s1 +
    (1 - t) * a * v * c2 * z01 * w2) * s2 + t * v * c3 * z11 * w3)
  rw [k3]
  have M : ∀ {j k : ℕ} {a b : ℚ}, Factors u j a → Factors u k b → Factors u (j + k) (a * b) := fun ha hb => factors_mul h0 h1 ha hb
  refine ⟨a * b * c0 * w0 * s1 * s2 * s3, b * c1 * w1 * s1 * s2 * s3, a * c2 * w2 * s2 * s3, c3 * w3 * s3, ?_, ?_, ?_, ?_, by ring⟩
  · exact M (M (M (M (M (M ha hb) hc0) hw0) hs1) hs2) hs3
  · exact factors_mono h0 h1 (by norm_num) (M (M (M (M (M hb hc1) hw1) hs1) hs2) hs3)
  · exact factors_mono h0 h1 (by norm_num) (M (M (M (M ha hc2) hw2) hs2) hs3)
  · exact factors_mono h0 h1 (by norm_num) (M (M hc3 hw3) hs3)

/-- The position inside a cell lies between zero and one. -/
theorem cellPosR_unit {u : ℚ} (R : Rnd u) (hu : u < 1) (h1 : R.Is 1) {x0 x1 x : ℚ} (hc : x0 < x1) (hl : x0 ≤ x) (hr : x ≤ x1) :
    0 ≤ cellPosR R x0 x1 x ∧ cellPosR R x0 x1 x ≤ 1 := by
  have hp : 0 < R.fl (x1 - x0) := R.fl_pos hu (by linarith)
  have hn : 0 ≤ R.fl (x - x0) := R.fl_nonneg (by linarith)
  have hm : R.fl (x - x0) ≤ R.fl (x1 - x0) := R.mono _ _ (by linarith)
  exact ⟨R.fl_nonneg (div_nonneg hn hp.le), R.fl_le_of h1 ((div_le_one hp).mpr hm)⟩

theorem cellPosR_ends {u : ℚ} (R : Rnd u) (hu : u < 1) (h1 : R.Is 1) {x0 x1 : ℚ} (hc : x0 < x1) :
    cellPosR R x0 x1 x0 = 0 ∧ cellPosR R x0 x1 x1 = 1 := by
  have hp : 0 < R.fl (x1 - x0) := R.fl_pos hu (by linarith)
  unfold cellPosR
  refine ⟨by rw [sub_self, R.fl_zero, zero_div, R.fl_zero], ?_⟩
  rw [div_self hp.ne']; exact h1

/-- The position is that of exact arithmetic up to three roundings. -/
theorem cellPosR_near {u : ℚ} (R : Rnd u) (hu : u < 1) {x0 x1 x : ℚ} (hc : x0 < x1) (hl : x0 ≤ x) (hr : x ≤ x1) :
    |cellPosR R x0 x1 x - (x - x0) / (x1 - x0)| ≤ (3 * u + u ^ 2) / (1 - u) := by
  have h0 := R.u_nonneg
  obtain ⟨a, ha, ea⟩ := fl_factor R (x - x0)
  obtain ⟨b, hb, eb⟩ := fl_factor R (x1 - x0)
  obtain ⟨c, hcf, ec⟩ := fl_factor R (R.fl (x - x0) / R.fl (x1 - x0))
  unfold cellPosR
  rw [ec, ea, eb]
  have q : 0 < x1 - x0 := by linarith
  have r0 : 0 ≤ (x - x0) / (x1 - x0) := div_nonneg (by linarith) q.le
  have r1 : (x - x0) / (x1 - x0) ≤ 1 := (div_le_one q).mpr (by linarith)
  unfold Factors at ha hb hcf
  rw [pow_one, pow_one] at ha hb hcf
  have bp : 0 < b := by linarith [hb.1]
  have e : (x - x0) * a / ((x1 - x0) * b) * c - (x - x0) / (x1 - x0) = (x - x0) / (x1 - x0) * ((a * c - b) / b) := by
    field_simp
  have p1 : 0 < 1 - u := by linarith
  rw [e, abs_mul, abs_of_nonneg r0]
  generalize (x - x0) / (x1 - x0) = s at *
  have k : |(a * c - b) / b| ≤ (3 * u + u ^ 2) / (1 - u) := by
    rw [abs_div, abs_of_pos bp, div_le_div_iff₀ bp p1]
    have a0 : 0 ≤ a := by linarith [ha.1]
    have c0 : 0 ≤ c := by linarith [hcf.1]
    have u1 : a * c ≤ (1 + u) * (1 + u) := mul_le_mul ha.2 hcf.2 c0 (by linarith)
    have u2 : (1 - u) * (1 - u) ≤ a * c := mul_le_mul ha.1 hcf.1 p1.le a0
    have t0 : 0 ≤ 3 * u + u ^ 2 := by positivity
    have m1 : (3 * u + u ^ 2) * (1 - u) ≤ (3 * u + u ^ 2) * b := mul_le_mul_of_nonneg_left hb.1 t0
    refine le_trans ?_ m1
    refine mul_le_mul_of_nonneg_right ?_ p1.le
    rw [abs_le]
    constructor <;> nlinarith [hb.1, hb.2]
  calc s * |(a * c - b) / b| ≤ 1 * |(a * c - b) / b| := mul_le_mul_of_nonneg_right r1 (abs_nonneg _)
    _ ≤ _ := by rw [one_mul]; exact k

/-! ### one cell -/

theorem cellSumR_nonneg {u : ℚ} (R : Rnd u) {t v z00 z10 z01 z11 : ℚ} (t0 : 0 ≤ t) (t1 : t ≤ 1) (v0 : 0 ≤ v) (v1 : v ≤ 1) (h00 : 0 ≤ z00)
    (h10 : 0 ≤ z10) (h01 : 0 ≤ z01) (h11 : 0 ≤ z11) : 0 ≤ cellSumR R t v z00 z10 z01 z11 := by
  have a : 0 ≤ R.fl (1 - t) := R.fl_nonneg (by linarith)
  have b : 0 ≤ R.fl (1 - v) := R.fl_nonneg (by linarith)
  unfold cellSumR
  have m0 : 0 ≤ R.fl (R.fl (R.fl (1 - t) * R.fl (1 - v)) * z00) := R.fl_nonneg (mul_nonneg (R.fl_nonneg (mul_nonneg a b)) h00)
  have m1 : 0 ≤ R.fl (R.fl (t * R.fl (1 - v)) * z10) := R.fl_nonneg (mul_nonneg (R.fl_nonneg (mul_nonneg t0 b)) h10)
  have m2 : 0 ≤ R.fl (R.fl (R.fl (1 - t) * v) * z01) := R.fl_nonneg (mul_nonneg (R.fl_nonneg (mul_nonneg a v0)) h01)
  have m3 : 0 ≤ R.fl (R.fl (t * v) * z11) := R.fl_nonneg (mul_nonneg (R.fl_nonneg (mul_nonneg t0 v0)) h11)
  exact R.fl_nonneg (add_nonneg (R.fl_nonneg (add_nonneg (R.fl_nonneg (add_nonneg m0 m1)) m2)) m3)

theorem cellSumR_between {u : ℚ} (R : Rnd u) (hu : u ≤ 1) {t v z00 z10 z01 z11 lo hi : ℚ} (t0 : 0 ≤ t) (t1 : t ≤ 1) (v0 : 0 ≤ v)
    (v1 : v ≤ 1) (hlo : 0 ≤ lo) (h00 : lo ≤ z00 ∧ z00 ≤ hi) (h10 : lo ≤ z10 ∧ z10 ≤ hi) (h01 : lo ≤ z01 ∧ z01 ≤ hi)
    (h11 : lo ≤ z11 ∧ z11 ≤ hi) :
    (1 - u) ^ 7 * lo ≤ cellSumR R t v z00 z10 z01 z11 ∧ cellSumR R t v z00 z10 z01 z11 ≤ (1 + u) ^ 7 * hi := by
  obtain ⟨d0, d1, d2, d3, f0, f1, f2, f3, e⟩ := cellSumR_factors R hu t v z00 z10 z01 z11
  have w0 : 0 ≤ (1 - t) * (1 - v) := mul_nonneg (by linarith) (by linarith)
  have w1 : 0 ≤ t * (1 - v) := mul_nonneg t0 (by linarith)
  have w2 : 0 ≤ (1 - t) * v := mul_nonneg (by linarith) v0
  have w3 : 0 ≤ t * v := mul_nonneg t0 v0
  have L : (0 : ℚ) ≤ (1 - u) ^ 7 := pow_nonneg (by linarith) 7
  have H : (0 : ℚ) ≤ (1 + u) ^ 7 := pow_nonneg (by linarith [R.u_nonneg]) 7
  have step : ∀ {w z d : ℚ}, 0 ≤ w → lo ≤ z ∧ z ≤ hi → Factors u 7 d → w * ((1 - u) ^ 7 * lo) ≤ w * z * d ∧
      w * z * d ≤ w * ((1 + u) ^ 7 * hi) := by
    intro w z d hw hz hd
    have z0 : 0 ≤ z := le_trans hlo hz.1
    rw [mul_assoc]
    refine ⟨mul_le_mul_of_nonneg_left ?_ hw, mul_le_mul_of_nonneg_left ?_ hw⟩
    · rw [mul_comm z d]; exact mul_le_mul hd.1 hz.1 hlo (factors_pos hu hd)
    · rw [mul_comm z d]; exact mul_le_mul hd.2 hz.2 z0 H
  have s0 := step w0 h00 f0
  have s1 := step w1 h10 f1
  have s2 := step w2 h01 f2
  have s3 := step w3 h11 f3
  have one : (1 - t) * (1 - v) + t * (1 - v) + (1 - t) * v + t * v = 1 := by ring
  rw [e]
  generalize (1 - u) ^ 7 * lo = l at *
  generalize (1 + u) ^ 7 * hi = h at *
  have el : (1 - t) * (1 - v) * l + t * (1 - v) * l + (1 - t) * v * l + t * v * l = l := by ring
  have eh : (1 - t) * (1 - v) * h + t * (1 - v) * h + (1 - t) * v * h + t * v * h = h := by ring
  constructor
  · linarith [s0.1, s1.1, s2.1, s3.1]
  · linarith [s0.2, s1.2, s2.2, s3.2]

/-- The bilinear function of the position. -/
def cellSum (t v z00 z10 z01 z11 : ℚ) : ℚ := (1 - t) * (1 - v) * z00 + t * (1 - v) * z10 + (1 - t) * v * z01 + t * v * z11

theorem cellSumR_near {u : ℚ} (R : Rnd u) (hu : u ≤ 1) {t v z00 z10 z01 z11 M : ℚ} (t0 : 0 ≤ t) (t1 : t ≤ 1) (v0 : 0 ≤ v)
    (v1 : v ≤ 1) (h00 : |z00| ≤ M) (h10 : |z10| ≤ M) (h01 : |z01| ≤ M) (h11 : |z11| ≤ M) :
    |cellSumR R t v z00 z10 z01 z11 - cellSum t v z00 z10 z01 z11| ≤ ((1 + u) ^ 7 - 1) * M := by
  obtain ⟨d0, d1, d2, d3, f0, f1, f2, f3, e⟩ := cellSumR_factors R hu t v z00 z10 z01 z11
  have hn := R.u_nonneg
  have w0 : 0 ≤ (1 - t) * (1 - v) := mul_nonneg (by linarith) (by linarith)
  have w1 : 0 ≤ t * (1 - v) := mul_nonneg t0 (by linarith)
  have w2 : 0 ≤ (1 - t) * v := mul_nonneg (by linarith) v0
  have w3 : 0 ≤ t * v := mul_nonneg t0 v0
  have two : (2 : ℚ) ≤ (1 + u) ^ 7 + (1 - u) ^ 7 := by
    have : (1 + u) ^ 7 + (1 - u) ^ 7 = 2 + 42 * u ^ 2 + 70 * u ^ 4 + 14 * u ^ 6 := by ring
    rw [this]; nlinarith [sq_nonneg u, pow_nonneg hn 4, pow_nonneg hn 6]
  have E0 : (0 : ℚ) ≤ (1 + u) ^ 7 - 1 := by
    have := one_le_pow₀ (n := 7) (show (1 : ℚ) ≤ 1 + u by linarith)
    linarith
  have step : ∀ {w z d : ℚ}, 0 ≤ w → |z| ≤ M → Factors u 7 d → |w * z * d - w * z| ≤ w * (((1 + u) ^ 7 - 1) * M) := by
    intro w z d hw hz hd
    rw [show w * z * d - w * z = w * ((d - 1) * z) by ring, abs_mul, abs_of_nonneg hw]
    refine mul_le_mul_of_nonneg_left ?_ hw
    rw [abs_mul]
    refine mul_le_mul ?_ hz (abs_nonneg z) E0
    rw [abs_le]
    constructor <;> linarith [hd.1, hd.2]
  have s0 := step w0 h00 f0
  have s1 := step w1 h10 f1
  have s2 := step w2 h01 f2
  have s3 := step w3 h11 f3
  rw [e]
  unfold cellSum
  generalize ((1 + u) ^ 7 - 1) * M = h at *
  have eh : (1 - t) * (1 - v) * h + t * (1 - v) * h + (1 - t) * v * h + t * v * h = h := by ring
  rw [abs_le] at *
  constructor
  · linarith [s0.1, s1.1, s2.1, s3.1]
  · linarith [s0.2, s1.2, s2.2, s3.2]

theorem cellSum_lipschitz {t v t' v' z00 z10 z01 z11 M e : ℚ} (t0 : 0 ≤ t) (t1 : t ≤ 1) (v0 : 0 ≤ v') (v1 : v' ≤ 1) (h00 : |z00| ≤ M)
    (h10 : |z10| ≤ M) (h01 : |z01| ≤ M) (h11 : |z11| ≤ M) (ht : |t - t'| ≤ e) (hv : |v - v'| ≤ e) :
    |cellSum t v z00 z10 z01 z11 - cellSum t' v' z00 z10 z01 z11| ≤ 4 * e * M := by
  have M0 : 0 ≤ M := le_trans (abs_nonneg _) h00
  have key : cellSum t v z00 z10 z01 z11 - cellSum t' v' z00 z10 z01 z11 =
      (v - v') * ((1 - t) * (z01 - z00) + t * (z11 - z10)) + (t - t') * ((1 - v') * (z10 - z00) + v' * (z11 - z01)) := by
    unfold cellSum; ring
  have mix : ∀ {s a b c d : ℚ}, 0 ≤ s → s ≤ 1 → |a| ≤ M → |b| ≤ M → |c| ≤ M → |d| ≤ M → |(1 - s) * (a - b) + s * (c - d)| ≤ 2 * M := by
    intro s a b c d s0 s1 ha hb hc hd
    rw [abs_le] at *
    constructor
    · nlinarith [mul_nonneg (sub_nonneg.mpr s1) (show 0 ≤ 2 * M + (a - b) by linarith [ha.1, hb.2]),
        mul_nonneg s0 (show 0 ≤ 2 * M + (c - d) by linarith [hc.1, hd.2])]
    · nlinarith [mul_nonneg (sub_nonneg.mpr s1) (show 0 ≤ 2 * M - (a - b) by linarith [ha.2, hb.1]),
        mul_nonneg s0 (show 0 ≤ 2 * M - (c - d) by linarith [hc.2, hd.1])]
  have m1 := mix t0 t1 h01 h00 h11 h10
  have m2 := mix v0 v1 h10 h00 h11 h01
  rw [key]
  refine le_trans (abs_add_le _ _) ?_
  rw [abs_mul, abs_mul]
  have e0 : 0 ≤ e := le_trans (abs_nonneg _) ht
  have a1 := mul_le_mul hv m1 (abs_nonneg _) e0
  have a2 := mul_le_mul ht m2 (abs_nonneg _) e0
  linarith

/-- The difference from exact arithmetic, in units of the largest value. -/
def cellErr (u : ℚ) : ℚ := ((1 + u) ^ 7 - 1) + 4 * ((3 * u + u ^ 2) / (1 - u))

theorem cell_error {u : ℚ} (R : Rnd u) (hu : u < 1) (h1 : R.Is 1) {x0 x1 y0 y1 x y z00 z10 z01 z11 M : ℚ} (hx : x0 < x1) (hy : y0 < y1)
    (a1 : x0 ≤ x) (a2 : x ≤ x1) (a3 : y0 ≤ y) (a4 : y ≤ y1) (h00 : |z00| ≤ M) (h10 : |z10| ≤ M) (h01 : |z01| ≤ M) (h11 : |z11| ≤ M) :
    |cellSumR R (cellPosR R x0 x1 x) (cellPosR R y0 y1 y) z00 z10 z01 z11 -
      cellSum ((x - x0) / (x1 - x0)) ((y - y0) / (y1 - y0)) z00 z10 z01 z11| ≤ cellErr u * M := by
  obtain ⟨t0, t1⟩ := cellPosR_unit R hu h1 hx a1 a2
  obtain ⟨v0, v1⟩ := cellPosR_unit R hu h1 hy a3 a4
  have n1 := cellPosR_near R hu hx a1 a2
  have n2 := cellPosR_near R hu hy a3 a4
  have q : 0 < y1 - y0 := by linarith
  have r0 : 0 ≤ (y - y0) / (y1 - y0) := div_nonneg (by linarith) q.le
  have r1 : (y - y0) / (y1 - y0) ≤ 1 := (div_le_one q).mpr (by linarith)
  have b1 := cellSumR_near R hu.le t0 t1 v0 v1 h00 h10 h01 h11
  have b2 := cellSum_lipschitz t0 t1 r0 r1 h00 h10 h01 h11 n1 n2
  have tri := abs_sub_le (cellSumR R (cellPosR R x0 x1 x) (cellPosR R y0 y1 y) z00 z10 z01 z11)
    (cellSum (cellPosR R x0 x1 x) (cellPosR R y0 y1 y) z00 z10 z01 z11) (cellSum ((x - x0) / (x1 - x0)) ((y - y0) / (y1 - y0)) z00 z10 z01 z11)
  unfold cellErr
  rw [add_mul]
  linarith

/-- On the border of a cell only the two values there count; both cells that share the border give the same. -/
theorem cellSumR_borders {u : ℚ} (R : Rnd u) (h1 : R.Is 1) (t v z00 z10 z01 z11 : ℚ) (ht : R.Is t) (hv : R.Is v) :
    cellSumR R 0 v z00 z10 z01 z11 = R.fl (R.fl (R.fl (1 - v) * z00) + R.fl (v * z01)) ∧
      cellSumR R 1 v z00 z10 z01 z11 = R.fl (R.fl (R.fl (1 - v) * z10) + R.fl (v * z11)) ∧
      cellSumR R t 0 z00 z10 z01 z11 = R.fl (R.fl (R.fl (1 - t) * z00) + R.fl (t * z10)) ∧
      cellSumR R t 1 z00 z10 z01 z11 = R.fl (R.fl (R.fl (1 - t) * z01) + R.fl (t * z11)) := by
  have h1' : R.fl 1 = 1 := h1
  have ht' : R.fl t = t := ht
  have hv' : R.fl v = v := hv
  unfold cellSumR
  refine ⟨?_, ?_, ?_, ?_⟩ <;>
    simp only [sub_zero, sub_self, h1', R.fl_zero, zero_mul, mul_zero, one_mul, mul_one, add_zero, zero_add, R.idem, ht', hv']

/-! ### the table -/

theorem cellQ_real (xs : List ℚ) (x : ℚ) : Magnetic.cellOf (xs.map fun q : ℚ => (q : ℝ)) (x : ℝ) = cellQ xs x := by
  unfold Magnetic.cellOf cellQ
  rw [← List.map_drop, ← List.map_dropLast, List.takeWhile_map, List.length_map]
  congr 2
  funext a
  simp

theorem map_some {xs : List ℚ} {i : Nat} {r : ℝ} (h : (xs.map fun q : ℚ => (q : ℝ))[i]? = some r) : ∃ q : ℚ, xs[i]? = some q ∧ (q : ℝ) = r := by
  rw [List.getElem?_map] at h
  cases e : xs[i]? with
  | none => rw [e] at h; cases h
  | some q => rw [e] at h; exact ⟨q, rfl, by simpa using h⟩

/-- The cell in which a point of the rectangle is found. -/
structure FoundCell (t : QMom) (x y : ℚ) (x0 x1 y0 y1 z00 z10 z01 z11 : ℚ) : Prop where
  px0 : t.p[cellQ t.p x]? = some x0
  px1 : t.p[cellQ t.p x + 1]? = some x1
  py0 : t.xi[cellQ t.xi y]? = some y0
  py1 : t.xi[cellQ t.xi y + 1]? = some y1
  v00 : t.f[cellQ t.xi y * t.p.length + cellQ t.p x]? = some z00
  v10 : t.f[cellQ t.xi y * t.p.length + (cellQ t.p x + 1)]? = some z10
  v01 : t.f[(cellQ t.xi y + 1) * t.p.length + cellQ t.p x]? = some z01
  v11 : t.f[(cellQ t.xi y + 1) * t.p.length + (cellQ t.p x + 1)]? = some z11
  xl : x0 ≤ x
  xr : x ≤ x1
  yl : y0 ≤ y
  yr : y ≤ y1
  dx : x0 < x1
  dy : y0 < y1

/-- The point in the coordinates of the table. -/
def flipped (b : Bool) (y : ℚ) : ℚ := if b = true then -y else y

theorem found_cell {t : QMom} {m : NMom} (hm : NMom.initialize t.table false t.flip = .ok m) {x y : ℚ} (hin : InRectangle m x y) :
    ∃ x0 x1 y0 y1 z00 z10 z01 z11, FoundCell t x (flipped t.flip y) x0 x1 y0 y1 z00 z10 z01 z11 := by
  obtain ⟨hg, g1, g2, g3, g4, ht, hl, hf⟩ := (C59_accepts_iff _ _ _ _).mp hm
  obtain ⟨lp, lxi⟩ := gslTable_two hg
  obtain ⟨i1, i2, i3, i4⟩ := hin
  rw [hf] at i3 i4
  have ey : (if t.flip = true then -(y : ℝ) else (y : ℝ)) = ((flipped t.flip y : ℚ) : ℝ) := by
    unfold flipped; split <;> simp
  rw [ey] at i3 i4
  generalize flipped t.flip y = w at *
  obtain ⟨a, b, ha, hb, al, ar, ad, -⟩ := cell_found lp hg.incP g1 g2 i1 i2
  obtain ⟨c, d, hc, hd, cl, cr, cd, -⟩ := cell_found lxi hg.incXi g3 g4 i3 i4
  have tp : t.table.p = t.p.map fun q : ℚ => (q : ℝ) := rfl
  have txi : t.table.xi = t.xi.map fun q : ℚ => (q : ℝ) := rfl
  have kp := (List.getElem?_eq_some_iff.1 hb).1
  have kx := (List.getElem?_eq_some_iff.1 hd).1
  rw [tp] at ha hb kp
  rw [txi] at hc hd kx
  rw [cellQ_real] at ha hb hc hd kp kx
  have len : t.table.p.length = t.p.length := List.length_map _
  have lenx : t.table.xi.length = t.xi.length := List.length_map _
  rw [List.length_map] at kp kx
  obtain ⟨x0, e1, rfl⟩ := map_some ha
  obtain ⟨x1, e2, rfl⟩ := map_some hb
  obtain ⟨y0, e3, rfl⟩ := map_some hc
  obtain ⟨y1, e4, rfl⟩ := map_some hd
  have cor : ∀ i j, i < t.p.length → j < t.xi.length → ∃ z, t.f[j * t.p.length + i]? = some z := by
    intro i j hi hj
    obtain ⟨z, hz⟩ := corner_some hg (k := i) (l := j) (by rw [len]; exact hi) (by rw [lenx]; exact hj)
    rw [len] at hz
    have hz' : ((t.f.map fun q : ℚ => (q : ℝ)).map FV.num)[j * t.p.length + i]? = some z := hz
    have := (List.getElem?_eq_some_iff.1 hz').1
    rw [List.length_map, List.length_map] at this
    exact ⟨_, List.getElem?_eq_getElem this⟩
  obtain ⟨z00, f00⟩ := cor _ _ (by omega : cellQ t.p x < _) (by omega : cellQ t.xi w < _)
  obtain ⟨z10, f10⟩ := cor _ _ kp (by omega : cellQ t.xi w < _)
  obtain ⟨z01, f01⟩ := cor _ _ (by omega : cellQ t.p x < _) kx
  obtain ⟨z11, f11⟩ := cor _ _ kp kx
  exact ⟨x0, x1, y0, y1, z00, z10, z01, z11, e1, e2, e3, e4, f00, f10, f01, f11, by exact_mod_cast al, by exact_mod_cast ar,
    by exact_mod_cast cl, by exact_mod_cast cr, by exact_mod_cast ad, by exact_mod_cast cd⟩

theorem head_map {xs : List ℚ} {r : ℝ} (h : (xs.map fun q : ℚ => (q : ℝ)).head? = some r) : ∃ q : ℚ, xs.head? = some q ∧ (q : ℝ) = r := by
  rw [List.head?_map] at h
  cases e : xs.head? with
  | none => rw [e] at h; cases h
  | some q => rw [e] at h; exact ⟨q, rfl, by simpa using h⟩

theorem last_map {xs : List ℚ} {r : ℝ} (h : (xs.map fun q : ℚ => (q : ℝ)).getLast? = some r) : ∃ q : ℚ, xs.getLast? = some q ∧ (q : ℝ) = r := by
  rw [List.getLast?_map] at h
  cases e : xs.getLast? with
  | none => rw [e] at h; cases h
  | some q => rw [e] at h; exact ⟨q, rfl, by simpa using h⟩

/-- Inside the rectangle the table is used, outside the value is zero. -/
theorem momR_cases {u : ℚ} (R : Rnd u) {t : QMom} {m : NMom} (hm : NMom.initialize t.table false t.flip = .ok m) (x y : ℚ) :
    (InRectangle m x y → momR R t x y = tableR R t x (flipped t.flip y)) ∧ (¬ InRectangle m x y → momR R t x y = 0) := by
  obtain ⟨hg, g1, g2, g3, g4, ht, hl, hf⟩ := (C59_accepts_iff _ _ _ _).mp hm
  obtain ⟨a, ea, qa⟩ := head_map g1
  obtain ⟨b, eb, qb⟩ := last_map g2
  obtain ⟨c, ec, qc⟩ := head_map g3
  obtain ⟨d, ed, qd⟩ := last_map g4
  have hr : InRectangle m x y ↔ (a ≤ x ∧ x ≤ b ∧ c ≤ flipped t.flip y ∧ flipped t.flip y ≤ d) := by
    unfold InRectangle flipped
    rw [← qa, ← qb, ← qc, ← qd, hf]
    split <;> norm_cast
  rw [hr]
  unfold momR
  rw [ea, eb, ec, ed]
  dsimp only
  unfold flipped
  cases t.flip
  · simp only [Bool.false_eq_true, if_false]
    constructor
    · rintro ⟨h1, h2, h3, h4⟩
      rw [if_neg (by push Not; exact ⟨h1, h2⟩), if_neg (by push Not; exact ⟨h3, h4⟩)]
    · intro hn
      split
      · rfl
      · split
        · rfl
        · rename_i p q; push Not at p q; exact absurd ⟨p.1, p.2, q.1, q.2⟩ hn
  · simp only [if_true]
    constructor
    · rintro ⟨h1, h2, h3, h4⟩
      rw [if_neg (by push Not; exact ⟨h1, h2⟩), if_neg (by push Not; constructor <;> linarith)]
    · intro hn
      split
      · rfl
      · split
        · rfl
        · rename_i p q; push Not at p q; exact absurd ⟨p.1, p.2, by linarith [q.2], by linarith [q.1]⟩ hn

theorem tableR_cell {u : ℚ} (R : Rnd u) {t : QMom} {x y x0 x1 y0 y1 z00 z10 z01 z11 : ℚ}
    (h : FoundCell t x y x0 x1 y0 y1 z00 z10 z01 z11) :
    tableR R t x y = cellSumR R (cellPosR R x0 x1 x) (cellPosR R y0 y1 y) z00 z10 z01 z11 := by
  unfold tableR
  simp only [h.px0, h.px1, h.py0, h.py1, h.v00, h.v10, h.v01, h.v11]

theorem exact_cell {t : QMom} {m : NMom} (hm : NMom.initialize t.table false t.flip = .ok m) {x y x0 x1 y0 y1 z00 z10 z01 z11 : ℚ}
    (h : FoundCell t x (flipped t.flip y) x0 x1 y0 y1 z00 z10 z01 z11) : m.eval linearSpline x y =
      .num ((cellSum ((x - x0) / (x1 - x0)) ((flipped t.flip y - y0) / (y1 - y0)) z00 z10 z01 z11 : ℚ) : ℝ) := by
  have len : (t.p.map fun q : ℚ => (q : ℝ)).length = t.p.length := List.length_map _
  have G : ∀ {xs : List ℚ} {i : Nat} {q : ℚ}, xs[i]? = some q → (xs.map fun q : ℚ => (q : ℝ))[i]? = some (q : ℝ) := by
    intro xs i q hq; rw [List.getElem?_map, hq]; rfl
  have hx := h.dx
  have hy := h.dy
  have ey : (if t.flip = true then -((flipped t.flip y : ℚ) : ℝ) else ((flipped t.flip y : ℚ) : ℝ)) = (y : ℝ) := by
    unfold flipped; split <;> simp
  have := C117_cell (t.p.map fun q : ℚ => (q : ℝ)) (t.xi.map fun q : ℚ => (q : ℝ)) (t.f.map fun q : ℚ => (q : ℝ)) t.flip m hm x
    ((flipped t.flip y : ℚ) : ℝ) (cellQ t.p x) (cellQ t.xi (flipped t.flip y)) x0 x1 y0 y1 z00 z10 z01 z11 (G h.px0) (G h.px1) (G h.py0)
    (G h.py1) (by exact_mod_cast h.xl) (by exact_mod_cast h.xr) (by exact_mod_cast h.yl) (by exact_mod_cast h.yr)
    (by rw [len]; exact G h.v00) (by rw [len]; exact G h.v10) (by rw [len]; exact G h.v01) (by rw [len]; exact G h.v11)
  rw [ey] at this
  rw [this]
  congr 1
  unfold Bilinear cellSum
  have q1 : ((x1 : ℝ) - x0) ≠ 0 := by
    have : (x0 : ℝ) < x1 := by exact_mod_cast hx
    intro h; linarith
  have q2 : ((y1 : ℝ) - y0) ≠ 0 := by
    have : (y0 : ℝ) < y1 := by exact_mod_cast hy
    intro h; linarith
  push_cast
  field_simp
  ring

/-! ### the claim -/

/-- **C126** Without rounding this is `Eval` of the exact model with the bilinear spline. -/
theorem C126_exact (t : QMom) (m : NMom) (hm : NMom.initialize t.table false t.flip = .ok m) (x y : ℚ) :
    m.eval linearSpline x y = .num ((momR exactRnd t x y : ℚ) : ℝ) := by
  obtain ⟨c1, c2⟩ := momR_cases exactRnd hm x y
  by_cases hin : InRectangle m x y
  · obtain ⟨x0, x1, y0, y1, z00, z10, z01, z11, h⟩ := found_cell hm hin
    rw [exact_cell hm h, c1 hin, tableR_cell exactRnd h]
    rfl
  · rw [C59_outside _ _ _ _ hin, c2 hin, Rat.cast_zero]

/-- **C126** Values that are not negative give a value that is not negative, everywhere. -/
theorem C126_nonneg {u : ℚ} (R : Rnd u) (hu : u < 1) (h1 : R.Is 1) (t : QMom) (m : NMom)
    (hm : NMom.initialize t.table false t.flip = .ok m) (hf : ∀ v ∈ t.f, 0 ≤ v) (x y : ℚ) : 0 ≤ momR R t x y := by
  obtain ⟨c1, c2⟩ := momR_cases R hm x y
  by_cases hin : InRectangle m x y
  · obtain ⟨x0, x1, y0, y1, z00, z10, z01, z11, h⟩ := found_cell hm hin
    obtain ⟨t0, t1⟩ := cellPosR_unit R hu h1 h.dx h.xl h.xr
    obtain ⟨v0, v1⟩ := cellPosR_unit R hu h1 h.dy h.yl h.yr
    rw [c1 hin, tableR_cell R h]
    exact cellSumR_nonneg R t0 t1 v0 v1 (hf _ (List.mem_of_getElem? h.v00)) (hf _ (List.mem_of_getElem? h.v10))
      (hf _ (List.mem_of_getElem? h.v01)) (hf _ (List.mem_of_getElem? h.v11))
  · rw [c2 hin]

/-- **C126** Inside the rectangle the value lies between the least and the largest stored value, up to seven roundings. -/
theorem C126_between_partial {u : ℚ} (R : Rnd u) (hu : u < 1) (h1 : R.Is 1) (t : QMom) (m : NMom)
    (hm : NMom.initialize t.table false t.flip = .ok m) (lo hi : ℚ) (hlo : 0 ≤ lo) (hf : ∀ v ∈ t.f, lo ≤ v ∧ v ≤ hi) (x y : ℚ)
    (hin : InRectangle m x y) : (1 - u) ^ 7 * lo ≤ momR R t x y ∧ momR R t x y ≤ (1 + u) ^ 7 * hi := by
  obtain ⟨x0, x1, y0, y1, z00, z10, z01, z11, h⟩ := found_cell hm hin
  obtain ⟨t0, t1⟩ := cellPosR_unit R hu h1 h.dx h.xl h.xr
  obtain ⟨v0, v1⟩ := cellPosR_unit R hu h1 h.dy h.yl h.yr
  rw [(momR_cases R hm x y).1 hin, tableR_cell R h]
  exact cellSumR_between R hu.le t0 t1 v0 v1 hlo (hf _ (List.mem_of_getElem? h.v00)) (hf _ (List.mem_of_getElem? h.v10))
    (hf _ (List.mem_of_getElem? h.v01)) (hf _ (List.mem_of_getElem? h.v11))

/-- **C126** The difference from the value of exact arithmetic is at most `cellErr u` times the largest stored value. -/
theorem C126_error {u : ℚ} (R : Rnd u) (hu : u < 1) (h1 : R.Is 1) (t : QMom) (m : NMom)
    (hm : NMom.initialize t.table false t.flip = .ok m) (M : ℚ) (hf : ∀ v ∈ t.f, |v| ≤ M) (x y : ℚ) :
    ∃ w : ℚ, m.eval linearSpline x y = .num (w : ℝ) ∧ |momR R t x y - w| ≤
      (((1 + u) ^ 7 - 1) + 4 * ((3 * u + u ^ 2) / (1 - u))) * M := by
  obtain ⟨c1, c2⟩ := momR_cases R hm x y
  by_cases hin : InRectangle m x y
  · obtain ⟨x0, x1, y0, y1, z00, z10, z01, z11, h⟩ := found_cell hm hin
    refine ⟨_, exact_cell hm h, ?_⟩
    rw [c1 hin, tableR_cell R h]
    exact cell_error R hu h1 h.dx h.dy h.xl h.xr h.yl h.yr (hf _ (List.mem_of_getElem? h.v00)) (hf _ (List.mem_of_getElem? h.v10))
      (hf _ (List.mem_of_getElem? h.v01)) (hf _ (List.mem_of_getElem? h.v11))
  · refine ⟨0, by rw [C59_outside _ _ _ _ hin, Rat.cast_zero], ?_⟩
    rw [c2 hin, sub_zero, abs_zero]
    obtain ⟨hg, -⟩ := (C59_accepts_iff _ _ _ _).mp hm
    obtain ⟨lp, lxi⟩ := gslTable_two hg
    have hsz := hg.size
    have : 0 < t.table.f.length := lt_of_lt_of_le (Nat.mul_pos (by omega) (by omega)) hsz
    have lf : t.table.f.length = t.f.length := by simp [QMom.table]
    rw [lf] at this
    have M0 : 0 ≤ M := le_trans (abs_nonneg _) (hf _ (List.getElem_mem this))
    have u0 := R.u_nonneg
    have E0 : (0 : ℚ) ≤ (1 + u) ^ 7 - 1 := by
      have := one_le_pow₀ (n := 7) (show (1 : ℚ) ≤ 1 + u by linarith)
      linarith
    have : 0 ≤ (3 * u + u ^ 2) / (1 - u) := div_nonneg (by positivity) (by linarith)
    positivity

/-- For `double` the factor is below `20 * 2 ^ (-53)`. -/
theorem cellErr_double : (((1 + 1 / 2 / 2 ^ 52) ^ 7 - 1) + 4 * ((3 * (1 / 2 / 2 ^ 52) + (1 / 2 / 2 ^ 52) ^ 2) / (1 - 1 / 2 / 2 ^ 52)) : ℚ) ≤
    20 / 2 ^ 53 := by norm_num

/-- **C126** For `double`: at most twenty units in the last place of the largest value. -/
theorem C126_error_double (t : QMom) (m : NMom) (hm : NMom.initialize t.table false t.flip = .ok m) (M : ℚ) (hf : ∀ v ∈ t.f, |v| ≤ M)
    (x y : ℚ) : ∃ w : ℚ, m.eval linearSpline x y = .num (w : ℝ) ∧ |momR (rndBits 52) t x y - w| ≤ 20 / 2 ^ 53 * M := by
  obtain ⟨w, e, h⟩ := C126_error (rndBits 52) (by norm_num) (by have := rndBits_int 1 (by norm_num); simpa [Rnd.Is] using this) t m hm M hf x y
  refine ⟨w, e, le_trans h ?_⟩
  obtain ⟨hg, -⟩ := (C59_accepts_iff _ _ _ _).mp hm
  obtain ⟨lp, lxi⟩ := gslTable_two hg
  have hsz := hg.size
  have : 0 < t.table.f.length := lt_of_lt_of_le (Nat.mul_pos (by omega) (by omega)) hsz
  have lf : t.table.f.length = t.f.length := by simp [QMom.table]
  rw [lf] at this
  have M0 : 0 ≤ M := le_trans (abs_nonneg _) (hf _ (List.getElem_mem this))
  exact mul_le_mul_of_nonneg_right cellErr_double M0

/-! ### nodes and borders -/

/-- A grid of numbers whose real copy is increasing. -/
theorem real_increasing {xs : List ℚ} (h : (xs.map fun q : ℚ => (q : ℝ)).Pairwise (· < ·)) : xs.Pairwise (· < ·) := by
  rw [List.pairwise_map] at h
  exact h.imp fun hab => by exact_mod_cast hab

theorem node_side {xs : List ℚ} (hinc : xs.Pairwise (· < ·)) {i j : Nat} {x x0 x1 : ℚ} (h0 : xs[i]? = some x0) (h1 : xs[i + 1]? = some x1)
    (hx : xs[j]? = some x) (hl : x0 ≤ x) (hr : x ≤ x1) : (j = i ∧ x = x0) ∨ (j = i + 1 ∧ x = x1) := by
  obtain ⟨l0, rfl⟩ := List.getElem?_eq_some_iff.1 h0
  obtain ⟨l1, rfl⟩ := List.getElem?_eq_some_iff.1 h1
  obtain ⟨lj, rfl⟩ := List.getElem?_eq_some_iff.1 hx
  rw [List.pairwise_iff_getElem] at hinc
  have a : ¬ j < i := fun h => absurd (hinc j i lj l0 h) (not_lt.mpr hl)
  have b : ¬ i + 1 < j := fun h => absurd (hinc (i + 1) j l1 lj h) (not_lt.mpr hr)
  rcases Nat.lt_or_ge i j with h | h
  · have : j = i + 1 := by omega
    subst this; exact Or.inr ⟨rfl, rfl⟩
  · have : j = i := by omega
    subst this; exact Or.inl ⟨rfl, rfl⟩

theorem node_rectangle {t : QMom} {m : NMom} (hm : NMom.initialize t.table false t.flip = .ok m) {x y : ℚ} {x0 x1 y0 y1 : ℚ} {i j k l : Nat}
    (hx0 : t.p[i]? = some x0) (hx1 : t.p[j]? = some x1) (hy0 : t.xi[k]? = some y0) (hy1 : t.xi[l]? = some y1) (a1 : x0 ≤ x) (a2 : x ≤ x1)
    (a3 : y0 ≤ y) (a4 : y ≤ y1) : InRectangle m x ((flipped t.flip y : ℚ) : ℝ) ∧ flipped t.flip (flipped t.flip y) = y := by
  obtain ⟨hg, g1, g2, g3, g4, ht, hl, hf⟩ := (C59_accepts_iff _ _ _ _).mp hm
  have G : ∀ {xs : List ℚ} {i : Nat} {q : ℚ}, xs[i]? = some q → (xs.map fun q : ℚ => (q : ℝ))[i]? = some (q : ℝ) := by
    intro xs i q hq; rw [List.getElem?_map, hq]; rfl
  obtain ⟨_, _, e1, -, l1, -⟩ := increasing_ends hg.incP (G hx0)
  obtain ⟨_, _, -, e2, -, l2⟩ := increasing_ends hg.incP (G hx1)
  obtain ⟨_, _, e3, -, l3, -⟩ := increasing_ends hg.incXi (G hy0)
  obtain ⟨_, _, -, e4, -, l4⟩ := increasing_ends hg.incXi (G hy1)
  rw [g1] at e1; rw [g2] at e2; rw [g3] at e3; rw [g4] at e4
  injection e1 with e1; injection e2 with e2; injection e3 with e3; injection e4 with e4
  have b1 : (x0 : ℝ) ≤ x := by exact_mod_cast a1
  have b2 : (x : ℝ) ≤ x1 := by exact_mod_cast a2
  have b3 : (y0 : ℝ) ≤ y := by exact_mod_cast a3
  have b4 : (y : ℝ) ≤ y1 := by exact_mod_cast a4
  have ff : flipped t.flip (flipped t.flip y) = y := by unfold flipped; split <;> simp
  have e : (if m.flip = true then -((flipped t.flip y : ℚ) : ℝ) else ((flipped t.flip y : ℚ) : ℝ)) = (y : ℝ) := by
    rw [hf]; unfold flipped; split <;> simp
  refine ⟨⟨by linarith, by linarith, ?_, ?_⟩, ff⟩
  · rw [e]; linarith
  · rw [e]; linarith

/-- **C126** At a node the stored value comes out unchanged. -/
theorem C126_node {u : ℚ} (R : Rnd u) (hu : u < 1) (h1 : R.Is 1) (t : QMom) (m : NMom)
    (hm : NMom.initialize t.table false t.flip = .ok m) (j k : Nat) (x y v : ℚ) (hx : t.p[j]? = some x) (hy : t.xi[k]? = some y)
    (hv : t.f[k * t.p.length + j]? = some v) (hr : R.Is v) : momR R t x (if t.flip = true then -y else y) = v := by
  obtain ⟨hg, -⟩ := (C59_accepts_iff _ _ _ _).mp hm
  obtain ⟨hin, ff⟩ := node_rectangle hm hx hx hy hy le_rfl le_rfl le_rfl le_rfl
  change momR R t x (flipped t.flip y) = v
  obtain ⟨x0, x1, y0, y1, z00, z10, z01, z11, h⟩ := found_cell hm hin
  rw [(momR_cases R hm x _).1 hin, tableR_cell R h]
  rw [ff] at h ⊢
  obtain ⟨px0, px1, py0, py1, v00, v10, v01, v11, xl, xr, yl, yr, dx, dy⟩ := h
  have cx := node_side (real_increasing hg.incP) px0 px1 hx xl xr
  have cy := node_side (real_increasing hg.incXi) py0 py1 hy yl yr
  obtain ⟨a0, a1⟩ := cellPosR_ends R hu h1 dx
  obtain ⟨b0, b1⟩ := cellPosR_ends R hu h1 dy
  have h1' : R.fl 1 = 1 := h1
  have hr' : R.fl v = v := hr
  generalize cellQ t.p x = i at *
  generalize cellQ t.xi y = l at *
  rcases cx with ⟨rfl, rfl⟩ | ⟨rfl, rfl⟩ <;> rcases cy with ⟨rfl, rfl⟩ | ⟨rfl, rfl⟩
  · rw [v00] at hv; injection hv with hv; subst hv
    rw [a0, b0]; unfold cellSumR
    simp only [sub_zero, h1', R.fl_zero, zero_mul, mul_zero, one_mul, mul_one, add_zero, hr']
  · rw [v01] at hv; injection hv with hv; subst hv
    rw [a0, b1]; unfold cellSumR
    simp only [sub_zero, sub_self, h1', R.fl_zero, zero_mul, mul_zero, one_mul, mul_one, add_zero, zero_add, hr']
  · rw [v10] at hv; injection hv with hv; subst hv
    rw [a1, b0]; unfold cellSumR
    simp only [sub_zero, sub_self, h1', R.fl_zero, zero_mul, mul_zero, one_mul, mul_one, add_zero, zero_add, hr']
  · rw [v11] at hv; injection hv with hv; subst hv
    rw [a1, b1]; unfold cellSumR
    simp only [sub_self, h1', R.fl_zero, zero_mul, mul_zero, one_mul, add_zero, zero_add, hr']

/-- **C126** On the line of a stored momentum, whichever of the two cells is used: the rounded straight line between the two stored
values there. -/
theorem C126_border {u : ℚ} (R : Rnd u) (hu : u < 1) (h1 : R.Is 1) (t : QMom) (m : NMom)
    (hm : NMom.initialize t.table false t.flip = .ok m) (j l : Nat) (x y y0 y1 a b : ℚ) (hx : t.p[j]? = some x) (hy0 : t.xi[l]? = some y0)
    (hy1 : t.xi[l + 1]? = some y1) (b1 : y0 ≤ y) (b2 : y < y1) (ha : t.f[l * t.p.length + j]? = some a)
    (hb : t.f[(l + 1) * t.p.length + j]? = some b) : momR R t x (if t.flip = true then -y else y) =
      R.fl (R.fl (R.fl (1 - R.fl (R.fl (y - y0) / R.fl (y1 - y0))) * a) + R.fl (R.fl (R.fl (y - y0) / R.fl (y1 - y0)) * b)) := by
  obtain ⟨hg, -⟩ := (C59_accepts_iff _ _ _ _).mp hm
  obtain ⟨hin, ff⟩ := node_rectangle hm hx hx hy0 hy1 le_rfl le_rfl b1 b2.le
  change momR R t x (flipped t.flip y) = _
  obtain ⟨x0, x1, w0, w1, z00, z10, z01, z11, h⟩ := found_cell hm hin
  rw [(momR_cases R hm x _).1 hin, tableR_cell R h]
  rw [ff] at h ⊢
  obtain ⟨px0, px1, py0, py1, v00, v10, v01, v11, xl, xr, yl, yr, dx, dy⟩ := h
  have cx := node_side (real_increasing hg.incP) px0 px1 hx xl xr
  have el : cellQ t.xi y = l := by
    have G : ∀ {xs : List ℚ} {i : Nat} {q : ℚ}, xs[i]? = some q → (xs.map fun q : ℚ => (q : ℝ))[i]? = some (q : ℝ) := by
      intro xs i q hq; rw [List.getElem?_map, hq]; rfl
    have := cell_unique (x := (y : ℝ)) (gslTable_two hg).2 hg.incXi (G hy0) (G hy1) (by exact_mod_cast b1) (by exact_mod_cast b2.le)
    have tx : t.table.xi = t.xi.map fun q : ℚ => (q : ℝ) := rfl
    rw [tx, cellQ_real] at this
    rcases this with h | ⟨-, h⟩
    · exact h
    · exact absurd (by exact_mod_cast h) b2.ne
  rw [el] at py0 py1 v00 v10 v01 v11
  rw [hy0] at py0; injection py0 with py0; subst py0
  rw [hy1] at py1; injection py1 with py1; subst py1
  obtain ⟨a0, a1⟩ := cellPosR_ends R hu h1 dx
  have isv : R.Is (cellPosR R y0 y1 y) := R.idem _
  obtain ⟨k1, k2, -, -⟩ := cellSumR_borders R h1 0 (cellPosR R y0 y1 y) z00 z10 z01 z11 R.fl_zero isv
  generalize cellQ t.p x = i at *
  rcases cx with ⟨rfl, rfl⟩ | ⟨rfl, rfl⟩
  · rw [v00] at ha; injection ha with ha; subst ha
    rw [v01] at hb; injection hb with hb; subst hb
    rw [a0, k1]; rfl
  · rw [v10] at ha; injection ha with ha; subst ha
    rw [v11] at hb; injection hb with hb; subst hb
    rw [a1, k2]; rfl

/-! ### between the stored values only up to rounding -/

/-- A table whose values are all one. -/
def onesTable (n : ℚ) : QMom := ⟨[0, n], [0, n], [1, 1, 1, 1], false⟩

theorem onesTable_accepted (n : ℚ) (hn : 0 < n) : ∃ m, NMom.initialize (onesTable n).table false (onesTable n).flip = .ok m ∧
    ∀ x y : ℚ, InRectangle m x y ↔ (0 ≤ x ∧ x ≤ n) ∧ 0 ≤ y ∧ y ≤ n := by
  have hn' : (0 : ℝ) < n := by exact_mod_cast hn
  refine ⟨⟨(onesTable n).table, 0, n, 0, n, false, false⟩, (C59_accepts_iff _ _ _ _).mpr ⟨⟨?_, ?_, ?_, ?_, ?_⟩, ?_, ?_, ?_, ?_, rfl, rfl, rfl⟩, ?_⟩
  · simp [onesTable, QMom.table]
  · simp [onesTable, QMom.table]
  · simp [onesTable, QMom.table, hn]
  · simp [onesTable, QMom.table, hn]
  · simp [onesTable, QMom.table]
  · simp [onesTable, QMom.table]
  · simp [onesTable, QMom.table]
  · simp [onesTable, QMom.table]
  · simp [onesTable, QMom.table]
  · intro x y
    simp only [InRectangle, Bool.false_eq_true, if_false]
    norm_cast
    tauto

/-- **C126** In `double` the value does not stay between the stored values: where every stored value is one, `1 + 2 ^ (-52)` and
`1 - 2 ^ (-53)` come out. -/
theorem C126_refuted_between : momR (rndBits 52) (onesTable 5) 1 1 = 1 + 1 / 2 ^ 52 ∧ momR (rndBits 52) (onesTable 7) 1 3 = 1 - 1 / 2 ^ 53 := by
  rw [rndQ_eq]; decide +kernel

/-- The premises of the theorems are met by these tables. -/
example : ∃ m, NMom.initialize (onesTable 5).table false (onesTable 5).flip = .ok m ∧ InRectangle m (1 : ℚ) (1 : ℚ) ∧
    (∀ v ∈ (onesTable 5).f, (1 : ℚ) ≤ v ∧ v ≤ 1) ∧ (onesTable 5).p[1]? = some 5 ∧ (onesTable 5).f[1 * (onesTable 5).p.length + 1]? = some 1 ∧
    (rndBits 52).Is 1 := by
  obtain ⟨m, hm, hr⟩ := onesTable_accepted 5 (by norm_num)
  refine ⟨m, hm, (hr 1 1).mpr (by norm_num), by simp [onesTable], rfl, rfl, ?_⟩
  unfold Rnd.Is; rw [rndQ_eq]; decide +kernel

/-! ### the distribution function -/

/-- **C126** Between two radii after the first interval: the value of the distribution function is not negative, and it lies between
the least and the largest stored value up to twelve roundings. -/
theorem C126_dist_partial {u : ℚ} (R : Rnd u) (hu : u < 1) (h1 : R.Is 1) (d : NDist QMom ℚ) (hd : GoodGrid d) (r shift x y : ℚ) (k : ℕ)
    (hk : 1 ≤ k) (a b : ℚ) (t s : QMom) (mt ms : NMom) (ha : d.r[k]? = some a) (hb : d.r[k + 1]? = some b) (ht : d.msdf[k]? = some t)
    (hs : d.msdf[k + 1]? = some s) (hmt : NMom.initialize t.table false t.flip = .ok mt) (hms : NMom.initialize s.table false s.flip = .ok ms)
    (r1 : a ≤ R.fl (r - shift)) (r2 : R.fl (r - shift) < b) (hadm : Admitted d (R.fl (r - shift))) (lo hi : ℚ) (hlo : 0 ≤ lo)
    (hft : ∀ v ∈ t.f, lo ≤ v ∧ v ≤ hi) (hfs : ∀ v ∈ s.f, lo ≤ v ∧ v ≤ hi) :
    ∃ v, distR R (fun (m : QMom) (q : ℚ × ℚ) => momR R m q.1 q.2) d r (x, y) shift = .ok v ∧ 0 ≤ v ∧
      (InRectangle mt x y → InRectangle ms x y →
        (1 - u) ^ 4 / (1 + u) * ((1 - u) ^ 7 * lo) ≤ v ∧ v ≤ (1 + u) ^ 4 / (1 - u) * ((1 + u) ^ 7 * hi)) := by
  have u0 := R.u_nonneg
  have n1 := C126_nonneg R hu h1 t mt hmt (fun v hv => le_trans hlo (hft v hv).1) x y
  have n2 := C126_nonneg R hu h1 s ms hms (fun v hv => le_trans hlo (hfs v hv).1) x y
  obtain ⟨v, e, v0, vl, vh⟩ := C56_rounded_between R hu (fun (m : QMom) (q : ℚ × ℚ) => momR R m q.1 q.2) d hd r shift (x, y) k hk a b t s
    ha hb ht hs r1 r2 hadm n1 n2
  refine ⟨v, e, v0, fun i1 i2 => ?_⟩
  obtain ⟨l1, h1'⟩ := C126_between_partial R hu h1 t mt hmt lo hi hlo hft x y i1
  obtain ⟨l2, h2'⟩ := C126_between_partial R hu h1 s ms hms lo hi hlo hfs x y i2
  dsimp only at vl vh
  have hab : a < b := lt_of_le_of_lt r1 r2
  have q : 0 < b - a := by linarith
  generalize R.fl (r - shift) = rho at *
  generalize momR R t x y = f0 at *
  generalize momR R s x y = f1 at *
  have s0 : 0 ≤ (rho - a) / (b - a) := div_nonneg (by linarith) q.le
  have s1 : (rho - a) / (b - a) ≤ 1 := (div_le_one q).mpr (by linarith)
  have el : lineThrough a b f0 f1 rho = (1 - (rho - a) / (b - a)) * f0 + (rho - a) / (b - a) * f1 := by
    have := q.ne'
    unfold lineThrough
    field_simp
    ring
  rw [el] at vl vh
  generalize (rho - a) / (b - a) = w at *
  generalize (1 - u) ^ 7 * lo = l at *
  generalize (1 + u) ^ 7 * hi = h at *
  have c1 : 0 ≤ (1 - u) ^ 4 / (1 + u) := div_nonneg (pow_nonneg (by linarith) 4) (by linarith)
  have c2 : 0 ≤ (1 + u) ^ 4 / (1 - u) := div_nonneg (pow_nonneg (by linarith) 4) (by linarith)
  refine ⟨le_trans (mul_le_mul_of_nonneg_left ?_ c1) vl, le_trans vh (mul_le_mul_of_nonneg_left ?_ c2)⟩
  · nlinarith [mul_nonneg (sub_nonneg.mpr s1) (sub_nonneg.mpr l1), mul_nonneg s0 (sub_nonneg.mpr l2)]
  · nlinarith [mul_nonneg (sub_nonneg.mpr s1) (sub_nonneg.mpr h1'), mul_nonneg s0 (sub_nonneg.mpr h2')]

/-- A table with one value everywhere. -/
def constTable (c : ℚ) : QMom := ⟨[0, 1], [-1, 1], [c, c, c, c], false⟩

/-- The number that is returned, if one is. -/
def returned : EvalRes ℚ → Option ℚ
  | .ok v => some v
  | _ => none

theorem returned_ok {r : EvalRes ℚ} {v : ℚ} (h : returned r = some v) : r = .ok v := by
  cases r <;> simp_all [returned]

/-- **C126** In the first interval a value below zero comes out of tables that contain only zeros and onesTable: the line is continued to
radius zero and back. -/
theorem C126_refuted_first : distR (rndBits 52) (fun (m : QMom) (q : ℚ × ℚ) => momR (rndBits 52) m q.1 q.2)
    ⟨[1, 27], [constTable 1, constTable 0], 1, 27, false⟩ 27 (0, 1) 0 = .ok (-1 / 2 ^ 48) := by
  apply returned_ok
  rw [rndQ_eq]; decide +kernel

end Softlib
