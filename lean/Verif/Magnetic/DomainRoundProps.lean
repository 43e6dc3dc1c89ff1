/-
C44 and C46 with rounded arithmetic.  Model: DomainRoundModel.lean.
-/
import Verif.Magnetic.DomainRoundModel
import Verif.Magnetic.DomainProps
import Verif.General.RoundProps
import Verif.General.RoundEval

namespace Softlib.Magnetic

open Softlib.General

variable {u : ℚ}

/-! ### errors -/

theorem near_fl (R : Rnd u) {x' x M : ℚ} {k : ℕ} (h : |x' - x| ≤ ((1 + u) ^ k - 1) * M) (hx : |x| ≤ M) :
    |R.fl x' - x| ≤ ((1 + u) ^ (k + 1) - 1) * M := by
  have hu := R.u_nonneg
  have h1 := R.rel x'
  have h2 : |x'| ≤ (1 + u) ^ k * M := by
    have := abs_sub_abs_le_abs_sub x' x
    linarith
  have h3 : |R.fl x' - x| ≤ |R.fl x' - x'| + |x' - x| := by
    have := abs_add_le (R.fl x' - x') (x' - x)
    rwa [show R.fl x' - x' + (x' - x) = R.fl x' - x by ring] at this
  have h4 : u * |x'| ≤ u * ((1 + u) ^ k * M) := mul_le_mul_of_nonneg_left h2 hu
  calc |R.fl x' - x| ≤ u * ((1 + u) ^ k * M) + ((1 + u) ^ k - 1) * M := by linarith
    _ = ((1 + u) ^ (k + 1) - 1) * M := by ring

theorem near_mul {x' x y' y : ℚ} {j k : ℕ} (hu : 0 ≤ u) (hx : |x' - x| ≤ ((1 + u) ^ j - 1) * |x|)
    (hy : |y' - y| ≤ ((1 + u) ^ k - 1) * |y|) : |x' * y' - x * y| ≤ ((1 + u) ^ (j + k) - 1) * |x * y| := by
  have hy2 : |y'| ≤ (1 + u) ^ k * |y| := by
    have := abs_sub_abs_le_abs_sub y' y
    linarith
  have e : x' * y' - x * y = (x' - x) * y' + x * (y' - y) := by ring
  have h0 : 0 ≤ ((1 + u) ^ j - 1) * |x| := le_trans (abs_nonneg _) hx
  calc |x' * y' - x * y| ≤ |(x' - x) * y'| + |x * (y' - y)| := by rw [e]; exact abs_add_le _ _
    _ = |x' - x| * |y'| + |x| * |y' - y| := by rw [abs_mul, abs_mul]
    _ ≤ ((1 + u) ^ j - 1) * |x| * ((1 + u) ^ k * |y|) + |x| * (((1 + u) ^ k - 1) * |y|) :=
        add_le_add (mul_le_mul hx hy2 (abs_nonneg _) h0) (mul_le_mul_of_nonneg_left hy (abs_nonneg _))
    _ = ((1 + u) ^ (j + k) - 1) * |x * y| := by rw [abs_mul]; ring

theorem near_diff (R : Rnd u) (x : ℚ) : |R.fl x - x| ≤ ((1 + u) ^ 1 - 1) * |x| := by
  have := R.rel x
  rw [pow_one]
  linarith

/-- `a*b - c*d` of rounded numbers. -/
theorem detR_near (R : Rnd u) (a b c d : ℚ) :
    |detR R (R.fl a) (R.fl b) (R.fl c) (R.fl d) - (a * b - c * d)| ≤ ((1 + u) ^ 4 - 1) * (|a * b| + |c * d|) := by
  have hu := R.u_nonneg
  have h1 := near_fl R (near_mul hu (near_diff R a) (near_diff R b)) (le_refl _)
  have h2 := near_fl R (near_mul hu (near_diff R c) (near_diff R d)) (le_refl _)
  refine near_fl R (k := 3) ?_ ?_
  · have := abs_sub (R.fl (R.fl a * R.fl b) - a * b) (R.fl (R.fl c * R.fl d) - c * d)
    rw [show R.fl (R.fl a * R.fl b) - R.fl (R.fl c * R.fl d) - (a * b - c * d) =
      (R.fl (R.fl a * R.fl b) - a * b) - (R.fl (R.fl c * R.fl d) - c * d) by ring]
    norm_num at h1 h2 this ⊢
    linarith
  · exact abs_sub _ _

/-! ### one coordinate of the crossing -/

/-- The coordinate `x` of the crossing is inside [0, 1] by the margins. -/
def Within (u x m e : ℚ) : Prop := m ≤ x ∧ (1 + u) * (x + m) ≤ 1 - e

/-- The coordinate `x` of the crossing is outside [0, 1] by the margins. -/
def Beyond (u x m e : ℚ) : Prop := x + m < 0 ∨ 1 + e < (1 - u) ^ 2 * (x - m)

theorem coord_spec (R : Rnd u) (hu1 : u < 1) (h1 : R.Is 1) {D N det n x m e : ℚ} (hD : D ≠ 0) (hx : x * D = N)
    (he : e < 1) (hdet : |det - D| ≤ e * |D|) (hn : |n - N| ≤ m * |D|) :
    (Within u x m e → 0 ≤ R.fl (R.fl (1 / det) * n) ∧ R.fl (R.fl (1 / det) * n) ≤ 1) ∧
    (Beyond u x m e → ¬ (0 ≤ R.fl (R.fl (1 / det) * n) ∧ R.fl (R.fl (1 / det) * n) ≤ 1)) ∧ det ≠ 0 := by
  have hu := R.u_nonneg
  have hDp : 0 < |D| := abs_pos.2 hD
  -- det = D * (1 + δ), n = D * (x + η)
  obtain ⟨δ, hδ⟩ : ∃ δ, det = D * (1 + δ) := ⟨det / D - 1, by field_simp; ring⟩
  obtain ⟨η, hη⟩ : ∃ η, n = D * (x + η) := ⟨n / D - x, by field_simp; ring⟩
  have hδe : |δ| ≤ e := by
    rw [hδ, show D * (1 + δ) - D = δ * D by ring, abs_mul] at hdet
    exact le_of_mul_le_mul_right hdet hDp
  have hηm : |η| ≤ m := by
    rw [hη, ← hx, show D * (x + η) - x * D = η * D by ring, abs_mul] at hn
    exact le_of_mul_le_mul_right hn hDp
  rw [abs_le] at hδe hηm
  have hpos : 0 < 1 + δ := by linarith
  have hdet0 : det ≠ 0 := by rw [hδ]; exact mul_ne_zero hD hpos.ne'
  -- k
  obtain ⟨k, hk⟩ : ∃ k, k = R.fl (1 / det) * det := ⟨_, rfl⟩
  have hkr : |k - 1| ≤ u := by
    have := R.rel (1 / det)
    have h2 := mul_le_mul_of_nonneg_right this (abs_nonneg det)
    rw [← abs_mul, mul_assoc, ← abs_mul, sub_mul, one_div_mul_cancel hdet0, abs_one, mul_one, ← hk] at h2
    exact h2
  rw [abs_le] at hkr
  have hkp : 0 < k := by linarith
  obtain ⟨y, hy⟩ : ∃ y, y * (1 + δ) = x + η := ⟨(x + η) / (1 + δ), by field_simp⟩
  have hprod : R.fl (1 / det) * n = k * y := by
    rw [hk, hη, ← hy, hδ]
    ring
  rw [hprod]
  refine ⟨?_, ?_, hdet0⟩
  · rintro ⟨w1, w2⟩
    have hy0 : 0 ≤ y := by
      by_contra hc
      have : y * (1 + δ) < 0 := mul_neg_of_neg_of_pos (not_le.1 hc) hpos
      linarith
    have hy1 : (1 + u) * y ≤ 1 := by
      have h3 : (1 + u) * (y * (1 + δ)) ≤ 1 * (1 + δ) := by
        rw [hy]
        have := mul_le_mul_of_nonneg_left (show x + η ≤ x + m by linarith) (show 0 ≤ 1 + u by linarith)
        linarith
      have h4 : ((1 + u) * y) * (1 + δ) ≤ 1 * (1 + δ) := by linarith
      exact le_of_mul_le_mul_right h4 hpos
    refine ⟨R.fl_nonneg (mul_nonneg hkp.le hy0), R.fl_le_of h1 ?_⟩
    calc k * y ≤ (1 + u) * y := mul_le_mul_of_nonneg_right (by linarith) hy0
      _ ≤ 1 := hy1
  · rintro (b | b) ⟨c1, c2⟩
    · have hy0 : y < 0 := by
        by_contra hc
        have : 0 ≤ y * (1 + δ) := mul_nonneg (not_lt.1 hc) hpos.le
        linarith
      have := R.fl_neg hu1 (mul_neg_of_pos_of_neg hkp hy0)
      linarith
    · have h0 : 0 < (1 - u) ^ 2 := by
        have : 0 < 1 - u := by linarith
        positivity
      have h3 : 1 * (1 + δ) < ((1 - u) ^ 2 * y) * (1 + δ) := by
        have := mul_le_mul_of_nonneg_left (show x - m ≤ x + η by linarith) h0.le
        rw [mul_assoc, hy]
        linarith
      have h4 : 1 < (1 - u) ^ 2 * y := lt_of_mul_lt_mul_right h3 hpos.le
      have hy0 : 0 < y := by
        by_contra hc
        have := mul_nonpos_of_nonneg_of_nonpos h0.le (not_lt.1 hc)
        linarith
      have h5 := R.fl_ge (mul_nonneg hkp.le hy0.le)
      have h6 : (1 - u) * ((1 - u) * y) ≤ (1 - u) * (k * y) :=
        mul_le_mul_of_nonneg_left (mul_le_mul_of_nonneg_right (by linarith) hy0.le) (by linarith)
      have h7 : (1 - u) ^ 2 * y = (1 - u) * ((1 - u) * y) := by ring
      linarith

/-! ### one side -/

/-- The determinant of path and side. -/
def detQ (p q v w : Q2) : ℚ := (w.r - v.r) * (q.z - p.z) - (q.r - p.r) * (w.z - v.z)
/-- Where on the side the line of the path crosses the line of the side. -/
def onSide (p q v w : Q2) : ℚ := ((p.r - v.r) * (q.z - p.z) - (p.z - v.z) * (q.r - p.r)) / detQ p q v w
/-- Where on the path. -/
def onPath (p q v w : Q2) : ℚ := -((p.z - v.z) * (w.r - v.r) - (p.r - v.r) * (w.z - v.z)) / detQ p q v w

/-- Sums of the absolute values of the products, in units of the determinant: how much is cancelled. -/
def condD (p q v w : Q2) : ℚ := (|(w.r - v.r) * (q.z - p.z)| + |(q.r - p.r) * (w.z - v.z)|) / |detQ p q v w|
def condS (p q v w : Q2) : ℚ := (|(p.r - v.r) * (q.z - p.z)| + |(p.z - v.z) * (q.r - p.r)|) / |detQ p q v w|
def condT (p q v w : Q2) : ℚ := (|(p.z - v.z) * (w.r - v.r)| + |(p.r - v.r) * (w.z - v.z)|) / |detQ p q v w|

/-- The side is met, by more than the errors of rounding. -/
def ClearHit (u : ℚ) (p q v w : Q2) : Prop :=
  detQ p q v w ≠ 0 ∧ ((1 + u) ^ 4 - 1) * condD p q v w < 1 ∧
    Within u (onSide p q v w) (((1 + u) ^ 4 - 1) * condS p q v w) (((1 + u) ^ 4 - 1) * condD p q v w) ∧
    Within u (onPath p q v w) (((1 + u) ^ 4 - 1) * condT p q v w) (((1 + u) ^ 4 - 1) * condD p q v w)

/-- The side is missed, by more than the errors of rounding. -/
def ClearMiss (u : ℚ) (p q v w : Q2) : Prop :=
  detQ p q v w ≠ 0 ∧ ((1 + u) ^ 4 - 1) * condD p q v w < 1 ∧
    (Beyond u (onSide p q v w) (((1 + u) ^ 4 - 1) * condS p q v w) (((1 + u) ^ 4 - 1) * condD p q v w) ∨
    Beyond u (onPath p q v w) (((1 + u) ^ 4 - 1) * condT p q v w) (((1 + u) ^ 4 - 1) * condD p q v w))

/-- What the function computes for a side. -/
def sideR (R : Rnd u) (p q v w : Q2) : Bool :=
  let x11 := R.fl (w.r - v.r)
  let y11 := R.fl (w.z - v.z)
  let a := R.fl (p.r - v.r)
  let b := R.fl (p.z - v.z)
  let x01 := R.fl (q.r - p.r)
  let y01 := R.fl (q.z - p.z)
  if a = 0 ∧ b = 0 then false
  else
    let det := detR R x11 y01 x01 y11
    if det = 0 then true
    else
      let s := R.fl (R.fl (1 / det) * detR R a y01 b x01)
      let t := R.fl (-R.fl (1 / det) * detR R b x11 a y11)
      if s ≥ 0 ∧ s ≤ 1 ∧ t ≥ 0 ∧ t ≤ 1 then true else false

theorem crossesLoopR_any (R : Rnd u) (p q : Q2) : ∀ dom : List Q2,
    crossesLoopR R p ⟨R.fl (q.r - p.r), R.fl (q.z - p.z)⟩ dom = true ↔
      ∃ i v w, dom[i]? = some v ∧ dom[i + 1]? = some w ∧ sideR R p q v w = true
  | [] => by simp [crossesLoopR]
  | [v] => by simp [crossesLoopR]
  | v :: w :: rest => by
    have ih := crossesLoopR_any R p q (w :: rest)
    have hcons : (∃ i x y, (v :: w :: rest)[i]? = some x ∧ (v :: w :: rest)[i + 1]? = some y ∧ sideR R p q x y = true) ↔
        sideR R p q v w = true ∨ ∃ i x y, (w :: rest)[i]? = some x ∧ (w :: rest)[i + 1]? = some y ∧ sideR R p q x y = true := by
      constructor
      · rintro ⟨i, x, y, h1, h2, h3⟩
        cases i with
        | zero =>
          simp only [List.getElem?_cons_zero, Option.some.injEq, Nat.zero_add, List.getElem?_cons_succ] at h1 h2
          subst h1 h2
          exact Or.inl h3
        | succ i => exact Or.inr ⟨i, x, y, by simpa using h1, by simpa using h2, h3⟩
      · rintro (h | ⟨i, x, y, h1, h2, h3⟩)
        · exact ⟨0, v, w, rfl, rfl, h⟩
        · exact ⟨i + 1, x, y, by simpa using h1, by simpa using h2, h3⟩
    rw [hcons, ← ih]
    rw [crossesLoopR]
    unfold sideR
    simp only
    split
    · simp
    · split
      · simp
      · split <;> simp

theorem fl_eq_zero (R : Rnd u) (hu1 : u < 1) {x : ℚ} : R.fl x = 0 ↔ x = 0 := by
  constructor
  · intro h
    rcases lt_trichotomy x 0 with hx | hx | hx
    · exact absurd h (R.fl_neg hu1 hx).ne
    · exact hx
    · exact absurd h (R.fl_pos hu1 hx).ne'
  · rintro rfl; exact R.fl_zero

theorem side_spec (R : Rnd u) (hu1 : u < 1) (h1 : R.Is 1) (p q v w : Q2) (hpv : p ≠ v) (hD : detQ p q v w ≠ 0)
    (he : ((1 + u) ^ 4 - 1) * condD p q v w < 1) :
    (ClearHit u p q v w → sideR R p q v w = true) ∧ (ClearMiss u p q v w → sideR R p q v w = false) := by
  have hDp : 0 < |detQ p q v w| := abs_pos.2 hD
  have hne : ¬ (R.fl (p.r - v.r) = 0 ∧ R.fl (p.z - v.z) = 0) := by
    rw [fl_eq_zero R hu1, fl_eq_zero R hu1]
    rintro ⟨h2, h3⟩
    apply hpv
    cases p; cases v
    simp only at h2 h3
    rw [show _ = _ from sub_eq_zero.1 h2, show _ = _ from sub_eq_zero.1 h3]
  have hscale : ∀ M : ℚ, ((1 + u) ^ 4 - 1) * M = ((1 + u) ^ 4 - 1) * (M / |detQ p q v w|) * |detQ p q v w| := by
    intro M; field_simp
  have e1 := detR_near R (w.r - v.r) (q.z - p.z) (q.r - p.r) (w.z - v.z)
  have e2 := detR_near R (p.r - v.r) (q.z - p.z) (p.z - v.z) (q.r - p.r)
  have e3 := detR_near R (p.z - v.z) (w.r - v.r) (p.r - v.r) (w.z - v.z)
  rw [hscale] at e1 e2 e3
  have c1 := coord_spec R hu1 h1 (x := onSide p q v w) hD (by unfold onSide; field_simp) he e1 e2
  have c2 := coord_spec R hu1 h1 (n := -detR R (R.fl (p.z - v.z)) (R.fl (w.r - v.r)) (R.fl (p.r - v.r)) (R.fl (w.z - v.z)))
    (N := -((p.z - v.z) * (w.r - v.r) - (p.r - v.r) * (w.z - v.z)))
    (x := onPath p q v w) (m := ((1 + u) ^ 4 - 1) * condT p q v w) hD (by unfold onPath; field_simp) he e1
    (by rw [neg_sub_neg, abs_sub_comm]; exact e3)
  obtain ⟨cs1, cs2, cs3⟩ := c1
  obtain ⟨ct1, ct2, -⟩ := c2
  rw [mul_neg, ← neg_mul] at ct1 ct2
  unfold sideR
  simp only
  rw [if_neg hne, if_neg cs3]
  constructor
  · rintro ⟨-, -, hs, ht⟩
    rw [if_pos ⟨(cs1 hs).1, (cs1 hs).2, (ct1 ht).1, (ct1 ht).2⟩]
  · rintro ⟨-, -, hs | ht⟩
    · rw [if_neg fun h => cs2 hs ⟨h.1, h.2.1⟩]
    · rw [if_neg fun h => ct2 ht ⟨h.2.2.1, h.2.2.2⟩]

end Softlib.Magnetic
namespace Softlib

open Softlib.General Softlib.Magnetic

variable {u : ℚ}

theorem clearHit_meet (hu : 0 ≤ u) (p q v w : Q2) (h : ClearHit u p q v w) :
    ¬ Parallel p.real q.real v.real w.real ∧ Meet p.real q.real v.real w.real := by
  obtain ⟨hD, he, ⟨s1, s2⟩, t1, t2⟩ := h
  have hg : 0 ≤ (1 + u) ^ 4 - 1 := by
    have : (1 : ℚ) ≤ (1 + u) ^ 4 := one_le_pow₀ (by linarith)
    linarith
  have mD : 0 ≤ ((1 + u) ^ 4 - 1) * condD p q v w := mul_nonneg hg (by unfold condD; positivity)
  have mS : 0 ≤ ((1 + u) ^ 4 - 1) * condS p q v w := mul_nonneg hg (by unfold condS; positivity)
  have mT : 0 ≤ ((1 + u) ^ 4 - 1) * condT p q v w := mul_nonneg hg (by unfold condT; positivity)
  have hD' : ((detQ p q v w : ℚ) : ℝ) ≠ 0 := by exact_mod_cast hD
  have hpar : ¬ Parallel p.real q.real v.real w.real := by
    intro hc
    apply hD'
    unfold Parallel at hc
    rw [← hc]
    simp [detQ, Q2.real]
  have a1 : 0 ≤ onSide p q v w := le_trans mS s1
  have a2 : onSide p q v w ≤ 1 := by
    have := mul_nonneg hu (add_nonneg a1 mS)
    linarith
  have b1 : 0 ≤ onPath p q v w := le_trans mT t1
  have b2 : onPath p q v w ≤ 1 := by
    have := mul_nonneg hu (add_nonneg b1 mT)
    linarith
  refine ⟨hpar, (meet_iff _ _ _ _ hpar).1 ?_⟩
  have es : (1 / ((w.real.r - v.real.r) * (q.real.z - p.real.z) - (q.real.r - p.real.r) * (w.real.z - v.real.z)) *
      ((p.real.r - v.real.r) * (q.real.z - p.real.z) - (p.real.z - v.real.z) * (q.real.r - p.real.r))) =
      ((onSide p q v w : ℚ) : ℝ) := by
    simp only [onSide, detQ, Q2.real]
    push_cast
    ring
  have et : (-(1 / ((w.real.r - v.real.r) * (q.real.z - p.real.z) - (q.real.r - p.real.r) * (w.real.z - v.real.z))) *
      ((p.real.z - v.real.z) * (w.real.r - v.real.r) - (p.real.r - v.real.r) * (w.real.z - v.real.z))) =
      ((onPath p q v w : ℚ) : ℝ) := by
    simp only [onPath, detQ, Q2.real]
    push_cast
    ring
  simp only [es, et]
  exact ⟨by exact_mod_cast a1, by exact_mod_cast a2, by exact_mod_cast b1, by exact_mod_cast b2⟩

theorem clearMiss_not_meet (hu : 0 ≤ u) (hu1 : u < 1) (p q v w : Q2) (h : ClearMiss u p q v w) :
    ¬ Parallel p.real q.real v.real w.real ∧ ¬ Meet p.real q.real v.real w.real := by
  obtain ⟨hD, he, hb⟩ := h
  have hg : 0 ≤ (1 + u) ^ 4 - 1 := by
    have : (1 : ℚ) ≤ (1 + u) ^ 4 := one_le_pow₀ (by linarith)
    linarith
  have mD : 0 ≤ ((1 + u) ^ 4 - 1) * condD p q v w := mul_nonneg hg (by unfold condD; positivity)
  have mS : 0 ≤ ((1 + u) ^ 4 - 1) * condS p q v w := mul_nonneg hg (by unfold condS; positivity)
  have mT : 0 ≤ ((1 + u) ^ 4 - 1) * condT p q v w := mul_nonneg hg (by unfold condT; positivity)
  have hD' : ((detQ p q v w : ℚ) : ℝ) ≠ 0 := by exact_mod_cast hD
  have hpar : ¬ Parallel p.real q.real v.real w.real := by
    intro hc
    apply hD'
    unfold Parallel at hc
    rw [← hc]
    simp [detQ, Q2.real]
  have out : ∀ x m e : ℚ, 0 ≤ m → 0 ≤ e → Beyond u x m e → x < 0 ∨ 1 < x := by
    rintro x m e hm he (hb | hb)
    · left; linarith
    · right
      by_contra hc
      have h2 : (1 - u) ^ 2 ≤ 1 := pow_le_one₀ (by linarith) (by linarith)
      have h3 : (1 - u) ^ 2 * (x - m) ≤ (1 - u) ^ 2 * 1 := mul_le_mul_of_nonneg_left (by linarith [not_lt.1 hc]) (by positivity)
      linarith
  refine ⟨hpar, fun hm => ?_⟩
  have hm' := (meet_iff _ _ _ _ hpar).2 hm
  have es : (1 / ((w.real.r - v.real.r) * (q.real.z - p.real.z) - (q.real.r - p.real.r) * (w.real.z - v.real.z)) *
      ((p.real.r - v.real.r) * (q.real.z - p.real.z) - (p.real.z - v.real.z) * (q.real.r - p.real.r))) =
      ((onSide p q v w : ℚ) : ℝ) := by
    simp only [onSide, detQ, Q2.real]
    push_cast
    ring
  have et : (-(1 / ((w.real.r - v.real.r) * (q.real.z - p.real.z) - (q.real.r - p.real.r) * (w.real.z - v.real.z))) *
      ((p.real.z - v.real.z) * (w.real.r - v.real.r) - (p.real.r - v.real.r) * (w.real.z - v.real.z))) =
      ((onPath p q v w : ℚ) : ℝ) := by
    simp only [onPath, detQ, Q2.real]
    push_cast
    ring
  simp only [es, et] at hm'
  obtain ⟨h1, h2, h3, h4⟩ := hm'
  have h1' : 0 ≤ onSide p q v w := by exact_mod_cast h1
  have h2' : onSide p q v w ≤ 1 := by exact_mod_cast h2
  have h3' : 0 ≤ onPath p q v w := by exact_mod_cast h3
  have h4' : onPath p q v w ≤ 1 := by exact_mod_cast h4
  rcases hb with hb | hb
  · rcases out _ _ _ mS mD hb with h | h <;> linarith
  · rcases out _ _ _ mT mD hb with h | h <;> linarith

/-- Two vertices follow each other. -/
def SideQ (dom : List Q2) (v w : Q2) : Prop := ∃ i : ℕ, dom[i]? = some v ∧ dom[i + 1]? = some w

/-- **C44** With rounded arithmetic a crossing that is clear (the margins `ClearHit` are the errors of rounding, relative
to what is cancelled in the determinants) is never missed, whatever the other sides are. -/
theorem C44_rounded_hit (R : Rnd u) (hu1 : u < 1) (h1 : R.Is 1) (dom : List Q2) (p q v w : Q2) (hs : SideQ dom v w)
    (hpv : p ≠ v) (h : ClearHit u p q v w) : crossesR R dom p q = some true ∧ Meet p.real q.real v.real w.real := by
  refine ⟨?_, (clearHit_meet R.u_nonneg p q v w h).2⟩
  obtain ⟨i, hv, hw⟩ := hs
  unfold crossesR
  have hne : dom.isEmpty = false := by
    cases dom with
    | nil => simp at hv
    | cons => rfl
  rw [hne]
  simp only [Bool.false_eq_true, if_false, Option.some.injEq]
  rw [crossesLoopR_any]
  exact ⟨i, v, w, hv, hw, (side_spec R hu1 h1 p q v w hpv h.1 h.2.1).1 h⟩

/-- **C44** With rounded arithmetic no crossing is reported if every side is clearly missed. -/
theorem C44_rounded_miss (R : Rnd u) (hu1 : u < 1) (h1 : R.Is 1) (dom : List Q2) (hne : dom ≠ []) (p q : Q2)
    (h : ∀ v w, SideQ dom v w → p ≠ v → ClearMiss u p q v w) : crossesR R dom p q = some false ∧
      ∀ v w, SideQ dom v w → p ≠ v → ¬ Meet p.real q.real v.real w.real := by
  refine ⟨?_, fun v w hs hpv => (clearMiss_not_meet R.u_nonneg hu1 p q v w (h v w hs hpv)).2⟩
  unfold crossesR
  rw [if_neg (by simpa using hne)]
  congr 1
  rw [Bool.eq_false_iff]
  intro hc
  obtain ⟨i, v, w, hv, hw, hsd⟩ := (crossesLoopR_any R p q dom).1 hc
  by_cases hpv : p = v
  · subst hpv
    unfold sideR at hsd
    simp [R.fl_zero] at hsd
  · have hm := h v w ⟨i, hv, hw⟩ hpv
    rw [(side_spec R hu1 h1 p q v w hpv hm.1 hm.2.1).2 hm] at hsd
    cases hsd

/-- **C44** With rounded arithmetic the answer is the exact one when every side is met or missed clearly. -/
theorem C44_rounded (R : Rnd u) (hu1 : u < 1) (h1 : R.Is 1) (dom : List Q2) (hne : dom ≠ []) (p q : Q2)
    (h : ∀ v w, SideQ dom v w → p ≠ v → ClearHit u p q v w ∨ ClearMiss u p q v w) :
    ∃ b, crossesR R dom p q = some b ∧
      (b = true ↔ ∃ v w, SideQ dom v w ∧ p ≠ v ∧ Meet p.real q.real v.real w.real) := by
  by_cases hex : ∃ v w, SideQ dom v w ∧ p ≠ v ∧ Meet p.real q.real v.real w.real
  · obtain ⟨v, w, hs, hpv, hm⟩ := hex
    rcases h v w hs hpv with hc | hc
    · exact ⟨true, (C44_rounded_hit R hu1 h1 dom p q v w hs hpv hc).1, fun _ => ⟨v, w, hs, hpv, hm⟩, fun _ => rfl⟩
    · exact absurd hm (clearMiss_not_meet R.u_nonneg hu1 p q v w hc).2
  · refine ⟨false, (C44_rounded_miss R hu1 h1 dom hne p q fun v w hs hpv => ?_).1, fun hc => (by cases hc), fun hc => absurd hc hex⟩
    rcases h v w hs hpv with hc | hc
    · exact absurd ⟨v, w, hs, hpv, (clearHit_meet R.u_nonneg p q v w hc).2⟩ hex
    · exact hc

/-- **C44** The margins in `double` precision: with `K` the largest of the three ratios of cancellation, a crossing is
clear if it is inside both segments by `K` times 2⁻⁴⁸ of their lengths, and a miss if it is outside one by as much. -/
theorem C44_rounded_double (p q v w : Q2) (K : ℚ) (hD : detQ p q v w ≠ 0) (hK : K < 2 ^ 48)
    (k1 : condD p q v w ≤ K) (k2 : condS p q v w ≤ K) (k3 : condT p q v w ≤ K) :
    (K / 2 ^ 48 ≤ onSide p q v w ∧ onSide p q v w ≤ 1 - K / 2 ^ 48 ∧
      K / 2 ^ 48 ≤ onPath p q v w ∧ onPath p q v w ≤ 1 - K / 2 ^ 48 → ClearHit (1 / 2 / 2 ^ 52) p q v w) ∧
    (onSide p q v w < - (K / 2 ^ 48) ∨ 1 + K / 2 ^ 48 < onSide p q v w ∨
      onPath p q v w < - (K / 2 ^ 48) ∨ 1 + K / 2 ^ 48 < onPath p q v w → ClearMiss (1 / 2 / 2 ^ 52) p q v w) := by
  have hg0 : (0 : ℚ) ≤ (1 + 1 / 2 / 2 ^ 52) ^ 4 - 1 := by norm_num
  have hg : ((1 + 1 / 2 / 2 ^ 52) ^ 4 - 1 : ℚ) ≤ 1 / 2 ^ 50 := by norm_num
  have hDp : 0 < |detQ p q v w| := abs_pos.2 hD
  have hK1 : 1 ≤ K := by
    refine le_trans ?_ k1
    unfold condD
    rw [le_div_iff₀ hDp, one_mul]
    exact abs_sub _ _
  have m : ∀ c : ℚ, 0 ≤ c → c ≤ K → 0 ≤ ((1 + 1 / 2 / 2 ^ 52) ^ 4 - 1) * c ∧ ((1 + 1 / 2 / 2 ^ 52) ^ 4 - 1) * c ≤ K / 2 ^ 50 := by
    intro c h0 hc
    refine ⟨mul_nonneg hg0 h0, ?_⟩
    calc ((1 + 1 / 2 / 2 ^ 52) ^ 4 - 1) * c ≤ 1 / 2 ^ 50 * K := mul_le_mul hg hc h0 (by norm_num)
      _ = K / 2 ^ 50 := by ring
  obtain ⟨d0, d1⟩ := m _ (by unfold condD; positivity) k1
  obtain ⟨s0, s1⟩ := m _ (by unfold condS; positivity) k2
  obtain ⟨t0, t1⟩ := m _ (by unfold condT; positivity) k3
  have he : ((1 + 1 / 2 / 2 ^ 52) ^ 4 - 1) * condD p q v w < 1 := by
    refine lt_of_le_of_lt d1 ?_
    rw [div_lt_one (by norm_num)]
    exact lt_trans hK (by norm_num)
  have hin : ∀ x c : ℚ, 0 ≤ c → c ≤ K / 2 ^ 50 → K / 2 ^ 48 ≤ x → x ≤ 1 - K / 2 ^ 48 →
      Within (1 / 2 / 2 ^ 52) x c (((1 + 1 / 2 / 2 ^ 52) ^ 4 - 1) * condD p q v w) := by
    intro x c c0 c1 x0 x1
    generalize ((1 + 1 / 2 / 2 ^ 52) ^ 4 - 1) * condD p q v w = e at *
    constructor
    · norm_num at *; linarith
    · norm_num at *; linarith
  have hout : ∀ x c : ℚ, 0 ≤ c → c ≤ K / 2 ^ 50 → (x < - (K / 2 ^ 48) ∨ 1 + K / 2 ^ 48 < x) →
      Beyond (1 / 2 / 2 ^ 52) x c (((1 + 1 / 2 / 2 ^ 52) ^ 4 - 1) * condD p q v w) := by
    intro x c c0 c1 hx
    generalize ((1 + 1 / 2 / 2 ^ 52) ^ 4 - 1) * condD p q v w = e at *
    rcases hx with hx | hx
    · left; norm_num at *; linarith
    · right; norm_num at *; linarith
  refine ⟨?_, ?_⟩
  · rintro ⟨a1, a2, a3, a4⟩
    exact ⟨hD, he, hin _ _ s0 s1 a1 a2, hin _ _ t0 t1 a3 a4⟩
  · rintro (a | a | a | a)
    · exact ⟨hD, he, .inl (hout _ _ s0 s1 (.inl a))⟩
    · exact ⟨hD, he, .inl (hout _ _ s0 s1 (.inr a))⟩
    · exact ⟨hD, he, .inr (hout _ _ t0 t1 (.inl a))⟩
    · exact ⟨hD, he, .inr (hout _ _ t0 t1 (.inr a))⟩

/-- A vertical side and a horizontal path through its middle: no cancellation, far inside. -/
example : ClearHit (1 / 2 / 2 ^ 52) ⟨1, 0⟩ ⟨3, 0⟩ ⟨2, -1⟩ ⟨2, 1⟩ :=
  (C44_rounded_double ⟨1, 0⟩ ⟨3, 0⟩ ⟨2, -1⟩ ⟨2, 1⟩ 1 (by norm_num [detQ]) (by norm_num) (by norm_num [condD, detQ])
    (by norm_num [condS, detQ]) (by norm_num [condT, detQ])).1 (by norm_num [onSide, onPath, detQ])

/-- **C44** Without rounding this is the test of the other C44 theorems, for points on the half-plane y = 0. -/
theorem C44_rounded_exact (dom : List Q2) (p q : Q2) (hp : 0 ≤ p.r) (hq : 0 ≤ q.r) :
    crossesDomain (dom.map Q2.real) p.r 0 p.z q.r 0 q.z = crossesR exactRnd dom p q := by
  have hsq : ∀ x : ℚ, 0 ≤ x → Real.sqrt ((x : ℝ) ^ 2 + 0 ^ 2) = x := by
    intro x hx
    rw [show (x : ℝ) ^ 2 + 0 ^ 2 = x ^ 2 by ring, Real.sqrt_sq (by exact_mod_cast hx)]
  have hid : ∀ x : ℚ, exactRnd.fl x = x := fun _ => rfl
  have key : ∀ (dom : List Q2) (d : Q2), crossesLoop p.real d.real (dom.map Q2.real) = crossesLoopR exactRnd p d dom := by
    intro dom
    induction dom with
    | nil => intro d; rfl
    | cons v dom ih =>
      intro d
      cases dom with
      | nil => rfl
      | cons w rest =>
        have ih' := ih d
        simp only [List.map_cons] at ih' ⊢
        rw [crossesLoop, crossesLoopR]
        simp only [hid, detR]
        rw [ih']
        have c1 : (p.real.r - v.real.r = 0 ∧ p.real.z - v.real.z = 0) ↔ (p.r - v.r = 0 ∧ p.z - v.z = 0) := by
          simp only [Q2.real]
          constructor
          · rintro ⟨h1, h2⟩; exact ⟨by exact_mod_cast h1, by exact_mod_cast h2⟩
          · rintro ⟨h1, h2⟩; exact ⟨by exact_mod_cast h1, by exact_mod_cast h2⟩
        have edet : (w.real.r - v.real.r) * d.real.z - d.real.r * (w.real.z - v.real.z) =
            (((w.r - v.r) * d.z - d.r * (w.z - v.z) : ℚ) : ℝ) := by
          simp only [Q2.real]; push_cast; ring
        have es : 1 / ((w.real.r - v.real.r) * d.real.z - d.real.r * (w.real.z - v.real.z)) *
            ((p.real.r - v.real.r) * d.real.z - (p.real.z - v.real.z) * d.real.r) =
            ((1 / ((w.r - v.r) * d.z - d.r * (w.z - v.z)) * ((p.r - v.r) * d.z - (p.z - v.z) * d.r) : ℚ) : ℝ) := by
          simp only [Q2.real]; push_cast; ring
        have et : -(1 / ((w.real.r - v.real.r) * d.real.z - d.real.r * (w.real.z - v.real.z))) *
            ((p.real.z - v.real.z) * (w.real.r - v.real.r) - (p.real.r - v.real.r) * (w.real.z - v.real.z)) =
            ((-(1 / ((w.r - v.r) * d.z - d.r * (w.z - v.z))) * ((p.z - v.z) * (w.r - v.r) - (p.r - v.r) * (w.z - v.z)) : ℚ) : ℝ) := by
          simp only [Q2.real]; push_cast; ring
        have c2 : ((w.real.r - v.real.r) * d.real.z - d.real.r * (w.real.z - v.real.z) = 0) ↔
            ((w.r - v.r) * d.z - d.r * (w.z - v.z) = 0) := by
          rw [edet]; exact_mod_cast Iff.rfl
        simp only [c1, c2]
        rw [es, et]
        have c3 : ∀ x y : ℚ, ((x : ℝ) ≥ 0 ∧ (x : ℝ) ≤ 1 ∧ (y : ℝ) ≥ 0 ∧ (y : ℝ) ≤ 1) ↔ (x ≥ 0 ∧ x ≤ 1 ∧ y ≥ 0 ∧ y ≤ 1) := by
          intro x y; exact_mod_cast Iff.rfl
        simp only [c3]
  unfold crossesDomain crossesR
  rw [hsq p.r hp, hsq q.r hq]
  have he : (dom.map Q2.real).isEmpty = dom.isEmpty := by cases dom <;> rfl
  rw [he]
  have hk := key dom ⟨q.r - p.r, q.z - p.z⟩
  have hr : (Q2.mk (q.r - p.r) (q.z - p.z)).real = ⟨(q.r : ℝ) - p.r, (q.z : ℝ) - p.z⟩ := by
    simp [Q2.real]
  rw [hr] at hk
  simp only [hid]
  rw [← hk]
  rfl

/-- The corner of a wall. -/
def leakDom : List Q2 := [⟨312264470 / 2 ^ 27, 493547 / 2 ^ 27⟩, ⟨197596684 / 2 ^ 27, 97859760 / 2 ^ 27⟩, ⟨110895790 / 2 ^ 27, 131394768 / 2 ^ 27⟩]
/-- A path that leaves through it. -/
def leakP : Q2 := ⟨104959549 / 2 ^ 27, 68828866 / 2 ^ 27⟩
def leakQ : Q2 := ⟨312129918 / 2 ^ 27, 133752517 / 2 ^ 27⟩

/-- **C44, refuted** in `double` precision: a path that starts in no vertex, is parallel to no side and goes through the
wall close to a corner is not seen. -/
theorem C44_refuted_rounded :
    crossesR (rndBits 52) leakDom leakP leakQ = some false ∧
    crossesR exactRnd leakDom leakP leakQ = some true ∧
    ∃ v w, SideQ leakDom v w ∧ leakP ≠ v ∧ ¬ Parallel leakP.real leakQ.real v.real w.real ∧
      Meet leakP.real leakQ.real v.real w.real := by
  refine ⟨by rw [rndQ_eq]; decide +kernel, by decide +kernel,
    ⟨312264470 / 2 ^ 27, 493547 / 2 ^ 27⟩, ⟨197596684 / 2 ^ 27, 97859760 / 2 ^ 27⟩, ⟨0, rfl, rfl⟩, ?_, ?_⟩
  · intro h
    have := congrArg Q2.r h
    norm_num [leakP] at this
  · apply clearHit_meet (u := 0) (le_refl _)
    refine ⟨?_, ?_, ?_, ?_⟩
    · norm_num [detQ, leakP, leakQ]
    · norm_num
    · norm_num [Within, onSide, detQ, leakP, leakQ]
    · norm_num [Within, onPath, detQ, leakP, leakQ]

end Softlib

namespace Softlib.Magnetic

open Softlib.General

variable {u : ℚ}

/-! ### the crossing of a height -/

/-- How much is lost in the quotient. -/
def quotLoss (u : ℚ) : ℚ := (1 + u) ^ 4 / (1 - u) - 1

theorem crossRR_near (R : Rnd u) (hu1 : u < 1) (za : ℚ) (v w : Q2) (hs : spansQ za v w) (hz : w.z ≠ v.z) :
    |crossRR R za v w - crossRR exactRnd za v w| ≤
      u * |crossRR exactRnd za v w| + (1 + u) * quotLoss u * |w.r - v.r| := by
  have hu := R.u_nonneg
  have hid : ∀ x : ℚ, exactRnd.fl x = x := fun _ => rfl
  unfold crossRR
  rw [if_neg hz, if_neg hz]
  simp only [hid]
  obtain ⟨dx, hdx⟩ : ∃ dx, dx = w.r - v.r := ⟨_, rfl⟩
  obtain ⟨da, hda⟩ : ∃ da, da = za - v.z := ⟨_, rfl⟩
  obtain ⟨dy, hdy⟩ : ∃ dy, dy = w.z - v.z := ⟨_, rfl⟩
  have hdy0 : dy ≠ 0 := by rw [hdy]; exact sub_ne_zero.2 hz
  obtain ⟨f, hf⟩ : ∃ f, f = da / dy := ⟨_, rfl⟩
  have hf01 : |f| ≤ 1 := by
    rw [hf, abs_div, div_le_one (abs_pos.2 hdy0), hda, hdy]
    rcases hs with ⟨h1, h2⟩ | ⟨h1, h2⟩
    · rw [abs_of_nonpos (by linarith), abs_of_nonpos (by linarith)]; linarith
    · rw [abs_of_nonneg (by linarith), abs_of_nonneg (by linarith)]; linarith
  rw [← hdx, ← hda, ← hdy]
  have hda' : da = f * dy := by rw [hf]; field_simp
  have h3 := near_fl R (near_mul hu (near_diff R dx) (near_diff R da)) (le_refl _)
  obtain ⟨n, hn⟩ : ∃ n, n = R.fl (R.fl dx * R.fl da) := ⟨_, rfl⟩
  rw [← hn] at h3 ⊢
  have h4 := R.rel dy
  obtain ⟨dy', hdy'⟩ : ∃ d, d = R.fl dy := ⟨_, rfl⟩
  rw [← hdy'] at h4 ⊢
  have hdp : 0 < |dy| := abs_pos.2 hdy0
  obtain ⟨δ, hδ⟩ : ∃ δ, dy' = dy * (1 + δ) := ⟨dy' / dy - 1, by field_simp; ring⟩
  have hδu : |δ| ≤ u := by
    rw [hδ, show dy * (1 + δ) - dy = δ * dy by ring, abs_mul] at h4
    exact le_of_mul_le_mul_right h4 hdp
  have hδb := abs_le.1 hδu
  have hpos : 0 < 1 + δ := by linarith
  obtain ⟨e, he⟩ : ∃ e, e = (n - dx * da) / dy := ⟨_, rfl⟩
  have heb : |e| ≤ ((1 + u) ^ 3 - 1) * |dx * f| := by
    rw [he, abs_div, div_le_iff₀ hdp]
    have e1 : |dx * da| = |dx * f| * |dy| := by rw [hda', ← mul_assoc, abs_mul]
    rw [e1] at h3
    norm_num at h3 ⊢
    linarith
  -- the quotient
  have hq : n / dy' = (dx * f + e) / (1 + δ) := by
    have h5 : n = (dx * f + e) * dy := by
      rw [add_mul, he, div_mul_cancel₀ _ hdy0, mul_assoc, ← hda']; ring
    rw [h5, hδ]
    field_simp
  have hqn : |n / dy' - dx * f| ≤ ((1 + u) ^ 3 / (1 - u) - 1) * |dx * f| := by
    rw [hq]
    have e2 : (dx * f + e) / (1 + δ) - dx * f = (e - δ * (dx * f)) / (1 + δ) := by field_simp; ring
    rw [e2, abs_div, abs_of_pos hpos, div_le_iff₀ hpos]
    have h6 : |e - δ * (dx * f)| ≤ ((1 + u) ^ 3 - 1) * |dx * f| + u * |dx * f| := by
      refine le_trans (abs_sub _ _) (add_le_add heb ?_)
      rw [abs_mul]
      exact mul_le_mul_of_nonneg_right hδu (abs_nonneg _)
    have h7 : ((1 + u) ^ 3 - 1 + u) = ((1 + u) ^ 3 / (1 - u) - 1) * (1 - u) := by
      have : (1 - u) ≠ 0 := by linarith
      field_simp
      ring
    have h8 : 0 ≤ (1 + u) ^ 3 / (1 - u) - 1 := by
      rw [sub_nonneg, le_div_iff₀ (by linarith)]
      have : (1 : ℚ) ≤ (1 + u) ^ 3 := one_le_pow₀ (by linarith)
      linarith
    have h9 : ((1 + u) ^ 3 / (1 - u) - 1) * (1 - u) ≤ ((1 + u) ^ 3 / (1 - u) - 1) * (1 + δ) :=
      mul_le_mul_of_nonneg_left (by linarith) h8
    have h10 := mul_le_mul_of_nonneg_right h9 (abs_nonneg (dx * f))
    calc |e - δ * (dx * f)| ≤ ((1 + u) ^ 3 - 1 + u) * |dx * f| := by linarith
      _ ≤ ((1 + u) ^ 3 / (1 - u) - 1) * (1 + δ) * |dx * f| := by rw [h7]; exact h10
      _ = ((1 + u) ^ 3 / (1 - u) - 1) * |dx * f| * (1 + δ) := by ring
  obtain ⟨y, hy⟩ : ∃ y, y = n / dy' := ⟨_, rfl⟩
  rw [← hy] at hqn ⊢
  have hyb : |y| ≤ (1 + u) ^ 3 / (1 - u) * |dx * f| := by
    have := abs_sub_abs_le_abs_sub y (dx * f)
    linarith
  have hg : |R.fl y - dx * f| ≤ quotLoss u * |dx * f| := by
    have h11 := R.rel y
    have h12 := abs_add_le (R.fl y - y) (y - dx * f)
    rw [show R.fl y - y + (y - dx * f) = R.fl y - dx * f by ring] at h12
    have h13 := mul_le_mul_of_nonneg_left hyb hu
    have h14 : quotLoss u * |dx * f| = u * ((1 + u) ^ 3 / (1 - u) * |dx * f|) + ((1 + u) ^ 3 / (1 - u) - 1) * |dx * f| := by
      unfold quotLoss; ring
    rw [h14]
    linarith
  have hl0 : 0 ≤ quotLoss u := by
    unfold quotLoss
    rw [sub_nonneg, le_div_iff₀ (by linarith)]
    have : (1 : ℚ) ≤ (1 + u) ^ 4 := one_le_pow₀ (by linarith)
    linarith
  have hdxf : |dx * f| ≤ |dx| := by
    rw [abs_mul]
    exact mul_le_of_le_one_right (abs_nonneg _) hf01
  have hg' : |R.fl y - dx * f| ≤ quotLoss u * |dx| := le_trans hg (mul_le_mul_of_nonneg_left hdxf hl0)
  have hc : dx * da / dy = dx * f := by rw [hf]; ring
  rw [hc]
  have h15 := R.rel (v.r + R.fl y)
  have h16 : |v.r + R.fl y| ≤ |v.r + dx * f| + quotLoss u * |dx| := by
    have := abs_add_le (v.r + dx * f) (R.fl y - dx * f)
    rw [show v.r + dx * f + (R.fl y - dx * f) = v.r + R.fl y by ring] at this
    linarith
  have h17 := abs_add_le (R.fl (v.r + R.fl y) - (v.r + R.fl y)) (R.fl y - dx * f)
  rw [show R.fl (v.r + R.fl y) - (v.r + R.fl y) + (R.fl y - dx * f) = R.fl (v.r + R.fl y) - (v.r + dx * f) by ring] at h17
  have h18 := mul_le_mul_of_nonneg_left h16 hu
  calc |R.fl (v.r + R.fl y) - (v.r + dx * f)| ≤ u * (|v.r + dx * f| + quotLoss u * |dx|) + quotLoss u * |dx| := by linarith
    _ = u * |v.r + dx * f| + (1 + u) * quotLoss u * |dx| := by ring

/-- The exact crossing is between the vertices. -/
theorem crossRR_between (za : ℚ) (v w : Q2) (hs : spansQ za v w) (X : ℚ) (hv : |v.r| ≤ X) (hw : |w.r| ≤ X) :
    |crossRR exactRnd za v w| ≤ X := by
  have hid : ∀ x : ℚ, exactRnd.fl x = x := fun _ => rfl
  unfold crossRR
  rw [abs_le] at *
  split
  · rcases max_choice v.r w.r with h | h <;> rw [h] <;> assumption
  · rename_i hz
    simp only [hid]
    have hdy : w.z - v.z ≠ 0 := sub_ne_zero.2 hz
    obtain ⟨f, hf⟩ : ∃ f, f = (za - v.z) / (w.z - v.z) := ⟨_, rfl⟩
    have h01 : 0 ≤ f ∧ f ≤ 1 := by
      rw [hf]
      rcases hs with ⟨h1, h2⟩ | ⟨h1, h2⟩
      · have : w.z - v.z < 0 := lt_of_le_of_ne (by linarith) hdy
        exact ⟨div_nonneg_of_nonpos (by linarith) this.le, by rw [div_le_one_of_neg this]; linarith⟩
      · have : 0 < w.z - v.z := lt_of_le_of_ne (by linarith) (Ne.symm hdy)
        exact ⟨div_nonneg (by linarith) this.le, by rw [div_le_one this]; linarith⟩
    have e : v.r + (w.r - v.r) * (za - v.z) / (w.z - v.z) = (1 - f) * v.r + f * w.r := by rw [hf]; ring
    rw [e]
    have f0 : 0 ≤ 1 - f := by linarith [h01.2]
    constructor
    · have a1 := mul_le_mul_of_nonneg_left hv.1 f0
      have a2 := mul_le_mul_of_nonneg_left hw.1 h01.1
      linarith
    · have a1 := mul_le_mul_of_nonneg_left hv.2 f0
      have a2 := mul_le_mul_of_nonneg_left hw.2 h01.1
      linarith

/-- The error of a crossing of a wall with radii up to `X`. -/
def crossLoss (u X : ℚ) : ℚ := (u + 2 * (1 + u) * quotLoss u) * X

theorem quotLoss_nonneg (hu : 0 ≤ u) (hu1 : u < 1) : 0 ≤ quotLoss u := by
  unfold quotLoss
  rw [sub_nonneg, le_div_iff₀ (by linarith)]
  have : (1 : ℚ) ≤ (1 + u) ^ 4 := one_le_pow₀ (by linarith)
  linarith

theorem crossRR_loss (R : Rnd u) (hu1 : u < 1) (za : ℚ) (v w : Q2) (hs : spansQ za v w) (X : ℚ) (hv : |v.r| ≤ X)
    (hw : |w.r| ≤ X) : |crossRR R za v w - crossRR exactRnd za v w| ≤ crossLoss u X := by
  have hu := R.u_nonneg
  have hq := quotLoss_nonneg hu hu1
  have hX : 0 ≤ X := le_trans (abs_nonneg _) hv
  by_cases hz : w.z = v.z
  · unfold crossRR
    rw [if_pos hz, if_pos hz, sub_self, abs_zero]
    unfold crossLoss
    positivity
  · refine le_trans (crossRR_near R hu1 za v w hs hz) ?_
    have h1 := mul_le_mul_of_nonneg_left (crossRR_between za v w hs X hv hw) hu
    have h2 : |w.r - v.r| ≤ 2 * X := by linarith [abs_sub w.r v.r]
    have h3 := mul_le_mul_of_nonneg_left h2 (show 0 ≤ (1 + u) * quotLoss u by positivity)
    unfold crossLoss
    linarith

/-- Lists that differ by at most `B` in every place. -/
def NearList (B : ℚ) (l l' : List ℚ) : Prop := List.Forall₂ (fun x y => |x - y| ≤ B) l l'

theorem rpoints_near (R : Rnd u) (hu1 : u < 1) (za X : ℚ) : ∀ (dom : List Q2) (_ : ∀ v ∈ dom, |v.r| ≤ X) (acc acc' : List ℚ),
    NearList (crossLoss u X) acc acc' →
      NearList (crossLoss u X) (rpointsLoopR R za dom acc) (rpointsLoopR exactRnd za dom acc')
  | [], _, acc, acc', h => by unfold rpointsLoopR; exact h
  | [_], _, acc, acc', h => by unfold rpointsLoopR; exact h
  | v :: w :: rest, hX, acc, acc', h => by
    rw [rpointsLoopR, rpointsLoopR, ← h.length_eq]
    have hrest : ∀ x ∈ w :: rest, |x.r| ≤ X := fun x hx => hX x (List.mem_cons_of_mem _ hx)
    split
    · split
      · rename_i hs
        apply rpoints_near R hu1 za X (w :: rest) hrest
        exact List.rel_append h (List.Forall₂.cons (crossRR_loss R hu1 za v w hs X (hX v (by simp)) (hX w (by simp))) List.Forall₂.nil)
      · exact rpoints_near R hu1 za X (w :: rest) hrest _ _ h
    · exact h

theorem maxMinQ_spec : ∀ (xs : List ℚ) (mx mn : ℚ), mn ≤ mx →
    maxMinQ mx mn xs = (xs.foldl max mx, xs.foldl min mn)
  | [], _, _, _ => rfl
  | x :: xs, mx, mn, h => by
    rw [maxMinQ, List.foldl_cons, List.foldl_cons]
    split
    · rename_i h1
      rw [maxMinQ_spec xs x mn (by linarith), max_eq_right (le_of_lt h1), min_eq_left (by linarith)]
    · rename_i h1
      split
      · rename_i h2
        rw [maxMinQ_spec xs mx x (by linarith), max_eq_left (not_lt.1 h1), min_eq_right (le_of_lt h2)]
      · rename_i h2
        rw [maxMinQ_spec xs mx mn h, max_eq_left (not_lt.1 h1), min_eq_left (not_lt.1 h2)]

theorem foldl_near {B : ℚ} (op : ℚ → ℚ → ℚ) (hop : ∀ a b c d : ℚ, |a - c| ≤ B → |b - d| ≤ B → |op a b - op c d| ≤ B) :
    ∀ (l l' : List ℚ) (a a' : ℚ), NearList B l l' → |a - a'| ≤ B → |l.foldl op a - l'.foldl op a'| ≤ B
  | _, _, _, _, .nil, ha => ha
  | _ :: xs, _ :: ys, a, a', .cons h1 h2, ha => by
    rw [List.foldl_cons, List.foldl_cons]
    exact foldl_near op hop xs ys _ _ h2 (hop _ _ _ _ ha h1)

theorem max_near {B : ℚ} (a b c d : ℚ) (h1 : |a - c| ≤ B) (h2 : |b - d| ≤ B) : |max a b - max c d| ≤ B := by
  rw [abs_le] at *
  constructor
  · rcases max_choice c d with h | h <;> rw [h] <;> linarith [le_max_left a b, le_max_right a b]
  · rcases max_choice a b with h | h <;> rw [h] <;> linarith [le_max_left c d, le_max_right c d]

theorem min_near {B : ℚ} (a b c d : ℚ) (h1 : |a - c| ≤ B) (h2 : |b - d| ≤ B) : |min a b - min c d| ≤ B := by
  rw [abs_le] at *
  constructor
  · rcases min_choice a b with h | h <;> rw [h] <;> linarith [min_le_left c d, min_le_right c d]
  · rcases min_choice c d with h | h <;> rw [h] <;> linarith [min_le_left a b, min_le_right a b]

/-- Results that differ by at most `B`. -/
def NearRes (B : ℚ) : MaxResQ → MaxResQ → Prop
  | .ub, .ub => True
  | .notInside, .notInside => True
  | .ok mx mn, .ok mx' mn' => |mx - mx'| ≤ B ∧ |mn - mn'| ≤ B
  | _, _ => False

theorem result_near {B : ℚ} (l l' : List ℚ) (h : NearList B l l') : NearRes B (rpointsResultQ l) (rpointsResultQ l') := by
  cases h with
  | nil => trivial
  | @cons a b l l' h1 h2 =>
    simp only [rpointsResultQ, maxMinQ_spec _ _ _ (le_refl _), NearRes]
    exact ⟨foldl_near max max_near l l' _ _ h2 h1, foldl_near min min_near l l' _ _ h2 h1⟩

/-- The results for the models with real numbers. -/
noncomputable def MaxResQ.real : MaxResQ → MaxRes
  | .ub => .ub
  | .notInside => .notInside
  | .ok mx mn => .ok mx mn

theorem spans_real (za : ℚ) (v w : Q2) : spans (za : ℝ) v.real w.real ↔ spansQ za v w := by
  unfold spans spansQ Q2.real
  simp only [ge_iff_le, Rat.cast_le]

theorem crossR_real (za : ℚ) (v w : Q2) : crossR (za : ℝ) v.real w.real = ((crossRR exactRnd za v w : ℚ) : ℝ) := by
  have hid : ∀ x : ℚ, exactRnd.fl x = x := fun _ => rfl
  unfold crossR crossRR Q2.real
  simp only [hid]
  by_cases h : w.z = v.z
  · rw [if_pos (by exact_mod_cast h), if_pos h]
    push_cast
    rfl
  · rw [if_neg (by exact_mod_cast h), if_neg h]
    push_cast
    rfl

theorem rpoints_real (za : ℚ) : ∀ (dom : List Q2) (acc : List ℚ),
    rpointsLoop (za : ℝ) (dom.map Q2.real) (acc.map (fun q : ℚ => (q : ℝ))) =
      (rpointsLoopR exactRnd za dom acc).map (fun q : ℚ => (q : ℝ))
  | [], _ => by simp [rpointsLoop, rpointsLoopR]
  | [_], _ => by simp [rpointsLoop, rpointsLoopR]
  | v :: w :: rest, acc => by
    have ih := rpoints_real za (w :: rest)
    rw [List.map_cons, List.map_cons, rpointsLoop, rpointsLoopR, List.length_map]
    split
    · by_cases hs : spansQ za v w
      · rw [if_pos ((spans_real za v w).2 hs), if_pos hs, ← ih, crossR_real, List.map_append, List.map_cons]
        rfl
      · rw [if_neg (fun h => hs ((spans_real za v w).1 h)), if_neg hs, ← ih, List.map_cons]
    · rfl

theorem maxMin_real : ∀ (xs : List ℚ) (mx mn : ℚ),
    maxMin (mx : ℝ) (mn : ℝ) (xs.map (fun q : ℚ => (q : ℝ))) = (((maxMinQ mx mn xs).1 : ℝ), ((maxMinQ mx mn xs).2 : ℝ))
  | [], _, _ => rfl
  | x :: xs, mx, mn => by
    rw [List.map_cons, maxMin, maxMinQ]
    by_cases h1 : x > mx
    · rw [if_pos (by exact_mod_cast h1), if_pos h1]
      exact maxMin_real xs _ _
    · rw [if_neg (by exact_mod_cast h1), if_neg h1]
      by_cases h2 : x < mn
      · rw [if_pos (by exact_mod_cast h2), if_pos h2]
        exact maxMin_real xs _ _
      · rw [if_neg (by exact_mod_cast h2), if_neg h2]
        exact maxMin_real xs _ _

theorem result_real (l : List ℚ) : rpointsResult (l.map (fun q : ℚ => (q : ℝ))) = (rpointsResultQ l).real := by
  cases l with
  | nil => rfl
  | cons x xs =>
    simp only [List.map_cons, rpointsResult, rpointsResultQ, MaxResQ.real, maxMin_real]

end Softlib.Magnetic

namespace Softlib

open Softlib.General Softlib.Magnetic

variable {u : ℚ}

/-- **C46** Without rounding these are the functions of the other C46 theorems. -/
theorem C46_rounded_exact (axis : Q2) (dom : List Q2) (a : ℚ) :
    findMaxRadius axis.real (dom.map Q2.real) = (findMaxRadiusR exactRnd axis dom).real ∧
    findMaxMin (dom.map Q2.real) a = (findMaxMinR exactRnd dom a).real := by
  have key : ∀ a : ℚ, rpointsResult (rpointsLoop (a : ℝ) (dom.map Q2.real) []) = (rpointsResultQ (rpointsLoopR exactRnd a dom [])).real := by
    intro a
    have := rpoints_real a dom []
    rw [List.map_nil] at this
    rw [this, result_real]
  constructor
  · unfold findMaxRadius findMaxRadiusR
    rw [List.head?_map, List.getLast?_map]
    cases h0 : dom.head? with
    | none => rfl
    | some v0 =>
      cases hl : dom.getLast? with
      | none => rfl
      | some vl =>
        simp only [Option.map_some]
        rw [show axis.real.z = (axis.z : ℝ) from rfl]
        by_cases hs : spansQ axis.z vl v0
        · rw [if_pos ((spans_real axis.z vl v0).2 hs), if_pos hs]
          rfl
        · rw [if_neg (fun h => hs ((spans_real axis.z vl v0).1 h)), if_neg hs]
          exact key axis.z
  · unfold findMaxMin findMaxMinR
    cases dom with
    | nil => rfl
    | cons v dom =>
      rw [if_neg (by simp)]
      exact key a

/-- **C46** With rounded arithmetic the outermost and the innermost crossing are the exact ones up to the error
`crossLoss`, and the exception is thrown in the same cases. -/
theorem C46_rounded (R : Rnd u) (hu1 : u < 1) (X : ℚ) (axis : Q2) (dom : List Q2) (a : ℚ) (hX : ∀ v ∈ dom, |v.r| ≤ X) :
    NearRes (crossLoss u X) (findMaxRadiusR R axis dom) (findMaxRadiusR exactRnd axis dom) ∧
    NearRes (crossLoss u X) (findMaxMinR R dom a) (findMaxMinR exactRnd dom a) := by
  constructor
  · unfold findMaxRadiusR
    cases dom.head? with
    | none => trivial
    | some v0 =>
      cases dom.getLast? with
      | none => trivial
      | some vl =>
        simp only
        split
        · trivial
        · exact result_near _ _ (rpoints_near R hu1 axis.z X dom hX [] [] List.Forall₂.nil)
  · unfold findMaxMinR
    split
    · trivial
    · exact result_near _ _ (rpoints_near R hu1 a X dom hX [] [] List.Forall₂.nil)

/-- **C46** In `double` precision the error is below 2⁻⁴⁹ times the largest radius of the wall. -/
theorem C46_rounded_double (X : ℚ) (hX : 0 ≤ X) : crossLoss (1 / 2 / 2 ^ 52) X ≤ X / 2 ^ 49 := by
  unfold crossLoss quotLoss
  rw [div_eq_mul_one_div X, mul_comm X]
  exact mul_le_mul_of_nonneg_right (by norm_num) hX

/-- What `3.7` is in `double` precision. -/
def r37 : ℚ := 4165829655317709 / 1125899906842624

/-- A wall whose outermost point is at the height of the axis. -/
def outerDom : List Q2 := [⟨1, -3⟩, ⟨r37, 0⟩, ⟨1, 3⟩, ⟨1 / 2, 0⟩, ⟨1, -3⟩]

/-- **C46, refuted** in `double` precision: the largest radius found is outside the wall. -/
theorem C46_refuted_rounded :
    findMaxRadiusR (rndBits 52) ⟨2, 0⟩ outerDom = .ok (r37 + 1 / 2251799813685248) r37 ∧
    findMaxRadiusR exactRnd ⟨2, 0⟩ outerDom = .ok r37 r37 ∧ ∀ v ∈ outerDom, v.r ≤ r37 := by
  refine ⟨by rw [rndQ_eq]; decide +kernel, by decide +kernel, ?_⟩
  intro v hv
  simp only [outerDom, List.mem_cons, List.not_mem_nil, or_false] at hv
  rcases hv with rfl | rfl | rfl | rfl | rfl <;> norm_num [r37]

/-- The hypotheses of `C46_rounded` are met by this wall. -/
example : NearRes (crossLoss (1 / 2 / 2 ^ 52) 4) (findMaxRadiusR (rndBits 52) ⟨2, 0⟩ outerDom) (findMaxRadiusR exactRnd ⟨2, 0⟩ outerDom) := by
  refine (C46_rounded (rndBits 52) (by norm_num) 4 ⟨2, 0⟩ outerDom 0 ?_).1
  intro v hv
  simp only [outerDom, List.mem_cons, List.not_mem_nil, or_false] at hv
  rcases hv with rfl | rfl | rfl | rfl | rfl <;> norm_num [r37, abs_le]

end Softlib
