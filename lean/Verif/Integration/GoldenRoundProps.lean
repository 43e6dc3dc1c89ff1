/-
Property C43 with rounded arithmetic.
-/
import Verif.Integration.GoldenRoundModel
import Verif.General.RoundProps
import Verif.General.RoundEval
import Verif.Integration.PeakedRoundProps

namespace Softlib

open Softlib.Integration Softlib.General

/-- What is used about the computed golden number: near one half of the root of five minus one. -/
structure NearGolden (u g g2 : ℚ) : Prop where
  lo : 3 / 5 < g
  hi : g < 5 / 8
  sum : |1 - g - g2| ≤ 6 * u
  sq : |g2 - g * g| ≤ u

theorem NearGolden.g2_bounds {u g g2 : ℚ} (hg : NearGolden u g g2) (hu : u ≤ 1 / 1000) : 36 / 100 - 1 / 1000 ≤ g2 ∧ g2 ≤ 40 / 100 := by
  obtain ⟨h1, h2, h3, h4⟩ := hg
  rw [abs_le] at h3 h4
  constructor <;> nlinarith

/-- The state after `n` rounds, while the bracket is large compared with the errors. -/
structure GoldInv (u g g2 H : ℚ) (f : ℚ → ℚ) (R : Rnd u) (n : ℕ) (s : GoldenR) : Prop where
  h0 : 0 < s.h
  hH : s.h ≤ H
  a0 : 0 ≤ s.a
  bH : s.b ≤ H
  err : |s.c - (s.a + g2 * s.h)| + |s.d - (s.a + g * s.h)| ≤ (n + 1) * (16 * u * H)
  len : |s.b - (s.a + s.h)| ≤ (n + 1) ^ 2 * (16 * u * H)
  ia : R.Is s.a
  ib : R.Is s.b
  ic : R.Is s.c
  id : R.Is s.d
  yc : s.yc = f s.c
  yd : s.yd = f s.d

/-- Large compared with the errors: the points are in order. -/
theorem GoldInv.order {u g g2 H : ℚ} {f : ℚ → ℚ} {R : Rnd u} {n : ℕ} {s : GoldenR} (hg : NearGolden u g g2) (hu : u ≤ 1 / 1000)
    (hH : 0 < H) (hs : GoldInv u g g2 H f R n s) (hbig : 96 * ((n : ℚ) + 1) ^ 2 * u * H < s.h) :
    s.a < s.c ∧ s.c < s.d ∧ s.d < s.b := by
  obtain ⟨g1, g3⟩ := hg.g2_bounds hu
  obtain ⟨q1, q2, -, -⟩ := hg
  obtain ⟨h0, h1, h2, h3, h4, h5, -, -, -, -, -, -⟩ := hs
  have hu0 := R.u_nonneg
  have hE : ((n : ℚ) + 1) * (16 * u * H) ≤ ((n : ℚ) + 1) ^ 2 * (16 * u * H) := by
    apply mul_le_mul_of_nonneg_right _ (by positivity)
    have : (0 : ℚ) ≤ n := by positivity
    nlinarith
  have hE6 : 6 * (((n : ℚ) + 1) ^ 2 * (16 * u * H)) < s.h := by linarith
  generalize ((n : ℚ) + 1) ^ 2 * (16 * u * H) = E at *
  have h4' := le_trans h4 hE
  have hc := abs_nonneg (s.c - (s.a + g2 * s.h))
  have hd := abs_nonneg (s.d - (s.a + g * s.h))
  have c1 := le_abs_self (s.c - (s.a + g2 * s.h))
  have c2 := neg_abs_le (s.c - (s.a + g2 * s.h))
  have d1 := le_abs_self (s.d - (s.a + g * s.h))
  have d2 := neg_abs_le (s.d - (s.a + g * s.h))
  rw [abs_le] at h5
  refine ⟨?_, ?_, ?_⟩ <;> nlinarith

/-- A new point. -/
theorem point_error {u : ℚ} (R : Rnd u) (hu : u ≤ 1 / 1000) {a x H : ℚ} (ha : 0 ≤ a) (hx : 0 ≤ x) (haH : a ≤ H) (hxH : x ≤ H) :
    |R.fl (a + R.fl x) - (a + x)| ≤ 4 * u * H := by
  have hu0 := R.u_nonneg
  have h1 := R.rel x
  have h2 := R.rel (a + R.fl x)
  have h3 := R.fl_nonneg hx
  have h4 := R.fl_le hx
  rw [abs_of_nonneg hx] at h1
  rw [abs_of_nonneg (by linarith : 0 ≤ a + R.fl x)] at h2
  rw [abs_le] at *
  have : u * x ≤ u * H := mul_le_mul_of_nonneg_left hxH hu0
  have : u * a ≤ u * H := mul_le_mul_of_nonneg_left haH hu0
  have h5 : R.fl x ≤ 2 * H := by nlinarith
  have : u * R.fl x ≤ u * (2 * H) := mul_le_mul_of_nonneg_left h5 hu0
  constructor <;> nlinarith

theorem golden_init_inv {u : ℚ} (R : Rnd u) (hu : u ≤ 1 / 1000) {g H : ℚ} (f : ℚ → ℚ) (hH : 0 < H) (hHi : R.Is H)
    (hg : NearGolden u g (R.fl (g * g))) : GoldInv u g (R.fl (g * g)) H f R 0 (goldenInitR R g H f) := by
  have hu0 := R.u_nonneg
  obtain ⟨g1, g3⟩ := hg.g2_bounds hu
  obtain ⟨q1, q2, -, -⟩ := hg
  have hh : R.fl (H - 0) = H := by rw [sub_zero]; exact hHi
  have p1 := point_error R hu (a := 0) (x := R.fl (g * g) * H) (H := H) le_rfl (by positivity) hH.le (by nlinarith)
  have p2 := point_error R hu (a := 0) (x := g * H) (H := H) le_rfl (by positivity) hH.le (by nlinarith)
  refine ⟨?_, ?_, ?_, ?_, ?_, ?_, ?_, ?_, ?_, ?_, rfl, rfl⟩ <;> simp only [goldenInitR, hh]
  · exact hH
  · exact le_rfl
  · exact le_rfl
  · exact le_rfl
  · have : 0 ≤ u * H := by positivity
    push_cast
    linarith
  · rw [zero_add, sub_self, abs_zero]
    positivity
  · exact R.fl_zero
  · exact hHi
  · exact R.idem _
  · exact R.idem _

theorem abs_shrink {k x : ℚ} (h0 : 0 ≤ k) (h1 : k ≤ 1) : |k * x| ≤ |x| := by
  rw [abs_mul, abs_of_nonneg h0]
  exact mul_le_of_le_one_left (abs_nonneg x) h1

theorem golden_step_inv {u : ℚ} (R : Rnd u) (hu : u ≤ 1 / 1000) {g H : ℚ} (f : ℚ → ℚ) (hH : 0 < H)
    (hg : NearGolden u g (R.fl (g * g))) (n : ℕ) (s : GoldenR) (hs : GoldInv u g (R.fl (g * g)) H f R n s)
    (hbig : 96 * ((n : ℚ) + 1) ^ 2 * u * H < s.h) :
    GoldInv u g (R.fl (g * g)) H f R (n + 1) (goldenStepR R g f s) := by
  have hu0 := R.u_nonneg
  obtain ⟨o1, o2, o3⟩ := hs.order hg hu hH hbig
  obtain ⟨g1, g3⟩ := hg.g2_bounds hu
  obtain ⟨q1, q2, q3, q4⟩ := hg
  obtain ⟨h0, h1, h2, h3, h4, h5, h6, h7, h8, h9, h10, h11⟩ := hs
  obtain ⟨a, b, c, d, h, yc, yd⟩ := s
  simp only at *
  unfold goldenStepR
  simp only
  generalize R.fl (g * g) = g2 at *
  have hgh : 0 < g * h := by positivity
  have k1 := R.rel (g * h)
  rw [abs_of_pos hgh] at k1
  have k2 := R.fl_pos (by linarith) hgh
  have hgh' : g * h ≤ H := by nlinarith
  have k3 : |R.fl (g * h) - g * h| ≤ u * H := le_trans k1 (mul_le_mul_of_nonneg_left hgh' hu0)
  have k4 : R.fl (g * h) ≤ H := by
    rw [abs_le] at k1
    nlinarith [k1.2]
  generalize R.fl (g * h) = h' at *
  have hm : (0 : ℚ) ≤ n := by positivity
  have huH : 0 ≤ u * H := by positivity
  split
  · -- the right part is cut off
    have p := point_error R hu (a := a) (x := g2 * h') (H := H) h2 (by positivity) (by linarith) (by nlinarith)
    refine ⟨k2, k4, h2, by linarith, ?_, ?_, h6, h9, R.idem _, h8, rfl, h10⟩
    · have e : |c - (a + g * h')| ≤ |c - (a + g2 * h)| + 2 * u * H := by
        have r1 : |g2 * h - g * h'| ≤ 2 * u * H := by
          have x1 : |(g2 - g * g) * h| ≤ u * H := by
            rw [abs_mul, abs_of_pos h0]
            exact mul_le_mul q4 h1 h0.le hu0
          have x2 : |g * (h' - g * h)| ≤ u * H := le_trans (abs_shrink (by linarith) (by linarith)) k3
          have x3 := abs_sub ((g2 - g * g) * h) (g * (h' - g * h))
          rw [show (g2 - g * g) * h - g * (h' - g * h) = g2 * h - g * h' by ring] at x3
          linarith
        have r2 := abs_add_le (c - (a + g2 * h)) (g2 * h - g * h')
        rw [show c - (a + g2 * h) + (g2 * h - g * h') = c - (a + g * h') by ring] at r2
        linarith
      have := abs_nonneg (d - (a + g * h))
      push_cast
      linarith
    · have r2 := abs_sub (d - (a + g * h)) (h' - g * h)
      rw [show d - (a + g * h) - (h' - g * h) = d - (a + h') by ring] at r2
      have := abs_nonneg (c - (a + g2 * h))
      have hn2 : 0 ≤ ((n : ℚ) * n + 3 * n + 2) * (u * H) := by positivity
      push_cast
      linarith
  · -- the left part is cut off
    have p := point_error R hu (a := c) (x := g * h') (H := H) (by linarith) (by positivity) (by linarith) (by nlinarith)
    refine ⟨k2, k4, by linarith, h3, ?_, ?_, h8, h7, h9, R.idem _, h11, rfl⟩
    · have e : |d - (c + g2 * h')| ≤ |c - (a + g2 * h)| + |d - (a + g * h)| + 8 * u * H := by
        have r1 : |(g * h - g2 * h) - g2 * h'| ≤ 8 * u * H := by
          have x1 : |g * (1 - g - g2) * h| ≤ 6 * u * H := by
            rw [abs_mul, abs_of_pos h0]
            exact mul_le_mul (le_trans (abs_shrink (by linarith) (by linarith)) q3) h1 h0.le (by linarith)
          have x2 : |g2 * (h' - g * h)| ≤ u * H := le_trans (abs_shrink (by linarith) (by linarith)) k3
          have x4 : |(g2 - g * g) * h| ≤ u * H := by
            rw [abs_mul, abs_of_pos h0]
            exact mul_le_mul q4 h1 h0.le hu0
          have x3 := abs_sub (g * (1 - g - g2) * h) (g2 * (h' - g * h))
          have x5 := abs_sub (g * (1 - g - g2) * h - g2 * (h' - g * h)) ((g2 - g * g) * h)
          rw [show g * (1 - g - g2) * h - g2 * (h' - g * h) - (g2 - g * g) * h = (g * h - g2 * h) - g2 * h' by ring] at x5
          linarith
        have r2 := abs_sub (d - (a + g * h)) (c - (a + g2 * h))
        have r3 := abs_add_le (d - (a + g * h) - (c - (a + g2 * h))) ((g * h - g2 * h) - g2 * h')
        rw [show d - (a + g * h) - (c - (a + g2 * h)) + ((g * h - g2 * h) - g2 * h') = d - (c + g2 * h') by ring] at r3
        linarith
      push_cast
      linarith
    · have r1 : |(1 - g - g2) * h - (h' - g * h)| ≤ 7 * u * H := by
        have x1 : |(1 - g - g2) * h| ≤ 6 * u * H := by
          rw [abs_mul, abs_of_pos h0]
          exact mul_le_mul q3 h1 h0.le (by linarith)
        have x3 := abs_sub ((1 - g - g2) * h) (h' - g * h)
        linarith
      have r2 := abs_sub (b - (a + h)) (c - (a + g2 * h))
      have r3 := abs_add_le (b - (a + h) - (c - (a + g2 * h))) ((1 - g - g2) * h - (h' - g * h))
      rw [show b - (a + h) - (c - (a + g2 * h)) + ((1 - g - g2) * h - (h' - g * h)) = b - (c + h') by ring] at r3
      have := abs_nonneg (d - (a + g * h))
      have hn2 : 0 ≤ ((n : ℚ) + 1) * (u * H) := by positivity
      push_cast
      linarith

/-- The invariant after `n` rounds, with the width. -/
theorem golden_loop_inv {u : ℚ} (R : Rnd u) (hu : u ≤ 1 / 1000) {g H : ℚ} (f : ℚ → ℚ) (hH : 0 < H) (hHi : R.Is H)
    (hg : NearGolden u g (R.fl (g * g))) (n : ℕ) (hbig : ∀ k, k ≤ n → 96 * ((k : ℚ) + 1) ^ 2 * u < ((1 - u) * g) ^ k) :
    ∀ k, k ≤ n → GoldInv u g (R.fl (g * g)) H f R k (goldenLoopR R g H f k) ∧
      ((1 - u) * g) ^ k * H ≤ (goldenLoopR R g H f k).h ∧ (goldenLoopR R g H f k).h ≤ ((1 + u) * g) ^ k * H ∧
      96 * ((k : ℚ) + 1) ^ 2 * u * H < (goldenLoopR R g H f k).h := by
  have hu0 := R.u_nonneg
  have hg0 : 0 < g := by linarith [hg.lo]
  intro k
  induction k with
  | zero =>
    intro _
    have hb := hbig 0 (by omega)
    have hh : (goldenLoopR R g H f 0).h = H := by
      show R.fl (H - 0) = H
      rw [sub_zero]; exact hHi
    refine ⟨golden_init_inv R hu f hH hHi hg, by rw [hh]; simp, by rw [hh]; simp, ?_⟩
    rw [hh]
    rw [pow_zero] at hb
    nlinarith
  | succ k ih =>
    intro hk
    obtain ⟨i1, i2, i3, i4⟩ := ih (by omega)
    have hst := golden_step_inv R hu f hH hg k _ i1 i4
    have e : (goldenLoopR R g H f (k + 1)).h = R.fl (g * (goldenLoopR R g H f k).h) := by
      rw [goldenLoopR]
      unfold goldenStepR
      split <;> rfl
    have hp : 0 ≤ g * (goldenLoopR R g H f k).h := mul_nonneg hg0.le i1.h0.le
    have w1 : ((1 - u) * g) ^ (k + 1) * H ≤ (goldenLoopR R g H f (k + 1)).h := by
      rw [e]
      refine le_trans ?_ (R.fl_ge hp)
      rw [pow_succ, show ((1 - u) * g) ^ k * ((1 - u) * g) * H = (1 - u) * (g * (((1 - u) * g) ^ k * H)) by ring]
      exact mul_le_mul_of_nonneg_left (mul_le_mul_of_nonneg_left i2 hg0.le) (by linarith)
    have w2 : (goldenLoopR R g H f (k + 1)).h ≤ ((1 + u) * g) ^ (k + 1) * H := by
      rw [e]
      refine le_trans (R.fl_le hp) ?_
      rw [pow_succ, show ((1 + u) * g) ^ k * ((1 + u) * g) * H = (1 + u) * (g * (((1 + u) * g) ^ k * H)) by ring]
      exact mul_le_mul_of_nonneg_left (mul_le_mul_of_nonneg_left i3 hg0.le) (by linarith)
    refine ⟨hst, w1, w2, lt_of_lt_of_le ?_ w1⟩
    exact mul_lt_mul_of_pos_right (hbig (k + 1) hk) hH

/-- Rising up to `m`, then falling, on [0, `H`]. -/
def RisesThenFallsQ (f : ℚ → ℚ) (H m : ℚ) : Prop :=
  0 ≤ m ∧ m ≤ H ∧ (∀ x y, 0 ≤ x → x < y → y ≤ m → f x < f y) ∧ (∀ x y, m ≤ x → x < y → y ≤ H → f y < f x)

/-- The middle of two numbers of a binary format stays between them. -/
theorem middle_between {u : ℚ} (R : Rnd u) (h2 : ∀ x, R.fl (2 * x) = 2 * R.fl x) {x y : ℚ} (hx : R.Is x) (hy : R.Is y) (h : x ≤ y) :
    x ≤ R.fl (1 / 2 * R.fl (x + y)) ∧ R.fl (1 / 2 * R.fl (x + y)) ≤ y := by
  have e : 1 / 2 * R.fl (x + y) = R.fl ((x + y) / 2) := by
    have := h2 ((x + y) / 2)
    rw [show 2 * ((x + y) / 2) = x + y by ring] at this
    rw [this]; ring
  rw [e, R.idem]
  exact ⟨R.le_fl_of hx (by linarith), R.fl_le_of hy (by linarith)⟩

/-- **C43** With every operation rounded, as long as the bracket is large compared with the errors (`hbig`; see
`C43_rounded_double`): the bracket stays in [0, `H`], the maximiser of a function that rises and then falls stays in
it, its width is the golden ratio to the power of the number of rounds up to the errors, and the result lies in it. -/
theorem C43_rounded {u : ℚ} (R : Rnd u) (hu : u ≤ 1 / 1000) (h2 : ∀ x, R.fl (2 * x) = 2 * R.fl x) {g H : ℚ} (f : ℚ → ℚ) (m : ℚ)
    (hH : 0 < H) (hHi : R.Is H) (hg : NearGolden u g (R.fl (g * g))) (hf : RisesThenFallsQ f H m)
    (n : ℕ) (hbig : ∀ k, k ≤ n → 96 * ((k : ℚ) + 1) ^ 2 * u < ((1 - u) * g) ^ k) :
    0 ≤ (goldenLoopR R g H f n).a ∧ (goldenLoopR R g H f n).a ≤ m ∧ m ≤ (goldenLoopR R g H f n).b ∧
    (goldenLoopR R g H f n).b ≤ H ∧
    (goldenLoopR R g H f n).a ≤ goldenResultR R (goldenLoopR R g H f n) ∧
    goldenResultR R (goldenLoopR R g H f n) ≤ (goldenLoopR R g H f n).b ∧
    (goldenLoopR R g H f n).b - (goldenLoopR R g H f n).a ≤ (((1 + u) * g) ^ n + ((n : ℚ) + 1) ^ 2 * (16 * u)) * H ∧
    (((1 - u) * g) ^ n - ((n : ℚ) + 1) ^ 2 * (16 * u)) * H ≤ (goldenLoopR R g H f n).b - (goldenLoopR R g H f n).a := by
  have inv := golden_loop_inv R hu f hH hHi hg n hbig
  obtain ⟨f1, f2, f3, f4⟩ := hf
  have bracket : ∀ k, k ≤ n → (goldenLoopR R g H f k).a ≤ m ∧ m ≤ (goldenLoopR R g H f k).b := by
    intro k
    induction k with
    | zero => intro _; exact ⟨f1, f2⟩
    | succ k ih =>
      intro hk
      obtain ⟨b1, b2⟩ := ih (by omega)
      obtain ⟨i1, -, -, i4⟩ := inv k (by omega)
      obtain ⟨o1, o2, o3⟩ := i1.order hg hu hH i4
      have a0 := i1.a0
      have bH := i1.bH
      have yc := i1.yc
      have yd := i1.yd
      rw [goldenLoopR]
      generalize goldenLoopR R g H f k = s at *
      obtain ⟨a, b, c, d, h, yc', yd'⟩ := s
      simp only at *
      subst yc yd
      unfold goldenStepR
      simp only
      split
      · rename_i hgt
        refine ⟨b1, ?_⟩
        by_contra hc
        exact absurd (f3 c d (by linarith) o2 (not_le.1 hc).le) (not_lt.2 (le_of_lt hgt))
      · rename_i hle
        refine ⟨?_, b2⟩
        by_contra hc
        exact hle (f4 c d (not_le.1 hc).le o2 (by linarith))
  obtain ⟨b1, b2⟩ := bracket n le_rfl
  obtain ⟨i1, i2, i3, i4⟩ := inv n le_rfl
  obtain ⟨o1, o2, o3⟩ := i1.order hg hu hH i4
  have hlen := i1.len
  refine ⟨i1.a0, b1, b2, i1.bH, ?_, ?_, ?_, ?_⟩
  · unfold goldenResultR
    split
    · exact (middle_between R h2 i1.ia i1.id (by linarith)).1
    · have := (middle_between R h2 i1.ic i1.ib (by linarith)).1
      rw [add_comm] at this
      linarith
  · unfold goldenResultR
    split
    · have := (middle_between R h2 i1.ia i1.id (by linarith)).2
      linarith
    · have := (middle_between R h2 i1.ic i1.ib (by linarith)).2
      rw [add_comm] at this
      exact this
  · rw [abs_le] at hlen
    linarith [hlen.2]
  · rw [abs_le] at hlen
    linarith [hlen.1]

/-- What `sqrt(5.0)` gives in `double` precision. -/
def root5D : ℚ := 5035177455121576 * 2 ^ (-51 : ℤ)

/-- What `2.0*M_PI` gives in `double` precision. -/
def twoPiD : ℚ := 7074237752028440 * 2 ^ (-50 : ℤ)

/-- `root5D` is the nearest number of the format. -/
theorem root5D_spec : (rndBits 52).Is root5D ∧ (root5D - 2 ^ (-52 : ℤ)) ^ 2 < 5 ∧ 5 < (root5D + 2 ^ (-52 : ℤ)) ^ 2 := by
  refine ⟨flBits_exact 52 (by norm_num), ?_, ?_⟩ <;> norm_num [root5D]

/-- The golden number in `double` precision. -/
theorem invphi_double : invphiR (rndBits 52) root5D = 5566755282872656 / 2 ^ 53 := by
  rw [rndQ_eq]; decide +kernel

/-- It satisfies the premise of `C43_rounded`. -/
theorem nearGolden_double : NearGolden (1 / 2 / 2 ^ 52) (invphiR (rndBits 52) root5D)
    ((rndBits 52).fl (invphiR (rndBits 52) root5D * invphiR (rndBits 52) root5D)) := by
  rw [invphi_double, rndQ_eq]
  constructor <;> decide +kernel

/-- **C43** In `double` precision, up to 50 rounds (tolerances from 3e-10 on; the default is 1e-2, 13 rounds): the
maximiser is in the bracket, and the result is in the bracket and in [0, 2π]. -/
theorem C43_rounded_double (f : ℚ → ℚ) (m : ℚ) (hf : RisesThenFallsQ f twoPiD m) (n : ℕ) (hn : n ≤ 50) :
    let s := goldenLoopR (rndBits 52) (invphiR (rndBits 52) root5D) twoPiD f n
    let x := goldenResultR (rndBits 52) s
    0 ≤ s.a ∧ s.a ≤ m ∧ m ≤ s.b ∧ s.b ≤ twoPiD ∧ s.a ≤ x ∧ x ≤ s.b ∧
      |x - m| ≤ ((5566755282872657 / 2 ^ 53) ^ n + ((n : ℚ) + 1) ^ 2 / 2 ^ 49) * twoPiD := by
  have hH : (0 : ℚ) < twoPiD := by norm_num [twoPiD]
  have h := C43_rounded (rndBits 52) (by norm_num)
    (fun x => by have := flBits_scale 52 x 1; rw [zpow_one, mul_comm x, mul_comm _ (2 : ℚ)] at this; exact this)
    (g := invphiR (rndBits 52) root5D) (H := twoPiD) f m
    hH (flBits_exact 52 (by norm_num)) nearGolden_double hf n (by
      intro k hk
      have hk' : k ≤ 50 := le_trans hk hn
      have hkq : (k : ℚ) ≤ 50 := by exact_mod_cast hk'
      have hk0 : (0 : ℚ) ≤ k := by positivity
      rw [invphi_double]
      have h1 : ((k : ℚ) + 1) ^ 2 ≤ 51 ^ 2 := by nlinarith
      have h2 : ((618 : ℚ) / 1000) ^ 50 ≤ (618 / 1000) ^ k := pow_le_pow_of_le_one (by norm_num) (by norm_num) hk'
      have h3 : ((618 : ℚ) / 1000) ^ k ≤ ((1 - 1 / 2 / 2 ^ 52) * (5566755282872656 / 2 ^ 53)) ^ k :=
        pow_le_pow_left₀ (by norm_num) (by norm_num) k
      refine lt_of_lt_of_le ?_ (le_trans h2 h3)
      have h4 : 96 * ((k : ℚ) + 1) ^ 2 * (1 / 2 / 2 ^ 52) ≤ 96 * 51 ^ 2 * (1 / 2 / 2 ^ 52) := by
        apply mul_le_mul_of_nonneg_right _ (by norm_num)
        linarith
      refine lt_of_le_of_lt h4 ?_
      norm_num)
  obtain ⟨h1, h2, h3, h4, h5, h6, h7, -⟩ := h
  refine ⟨h1, h2, h3, h4, h5, h6, ?_⟩
  have hw : ((1 + (1 / 2 / 2 ^ 52 : ℚ)) * invphiR (rndBits 52) root5D) ^ n ≤ (5566755282872657 / 2 ^ 53) ^ n := by
    rw [invphi_double]
    exact pow_le_pow_left₀ (by norm_num) (by norm_num) n
  have hw' := mul_le_mul_of_nonneg_right hw hH.le
  rw [abs_le]
  constructor <;> linarith

/-- **C43, refuted** in `double` precision: after 80 rounds (a tolerance of about 1e-16) the result for the function
`x ↦ x`, which rises on all of [0, 2π], is beyond 2π by two units in the last place. -/
theorem C43_refuted_rounded :
    goldenResultR (rndBits 52) (goldenLoopR (rndBits 52) (invphiR (rndBits 52) root5D) twoPiD (fun x => x) 80) =
      twoPiD + 2 / 2 ^ 50 := by
  rw [rndQ_eq]
  decide +kernel

/-- The premises of `C43_rounded_double`: a parabola around 3. -/
example : RisesThenFallsQ (fun x => -(x - 3) ^ 2) twoPiD 3 := by
  refine ⟨by norm_num, by norm_num [twoPiD], fun x y _ h1 h2 => ?_, fun x y h1 h2 _ => ?_⟩ <;> simp only <;> nlinarith

end Softlib
