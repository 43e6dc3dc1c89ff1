/-
C99: when the three-dimensional wall test reports a hit, there is one; and what it reports exactly.

Source: /repo/src/MagneticField/MagneticField2D.cpp 367-457.
-/
import Verif.Magnetic.DomainProps

namespace Softlib

open Magnetic

noncomputable section

/-- The segment meets the whole cone through the tile from `v` to `w`, not only the tile itself. -/
def MeetsCone (p0 p1 : P3) (v w : Pt) : Prop :=
  ∃ t s, 0 ≤ t ∧ t ≤ 1 ∧ (along p0 p1 t).z = (between v w s).z ∧
    (along p0 p1 t).x ^ 2 + (along p0 p1 t).y ^ 2 = (between v w s).r ^ 2

/-- The segment is as steep as the tile: its horizontal length is to its height as the radial extent
of the tile is to its height. -/
def SameSlope (p0 p1 : P3) (v w : Pt) : Prop :=
  ((p1.x - p0.x) ^ 2 + (p1.y - p0.y) ^ 2) * (w.z - v.z) ^ 2 = ((w.r - v.r) * (p1.z - p0.z)) ^ 2

/-- The line through the segment passes the height of the horizontal tile at a point whose distance
from the axis is minus a radius of the tile. -/
def MeetsMirrored (p0 p1 : P3) (v w : Pt) : Prop :=
  p0.z ≠ p1.z ∧ v.r ≠ w.r ∧ ∃ t s, 0 ≤ s ∧ s ≤ 1 ∧ (along p0 p1 t).z = v.z ∧
    (between v w s).r = - Real.sqrt ((along p0 p1 t).x ^ 2 + (along p0 p1 t).y ^ 2)

/-- The tile is looked at: not excluded as part of the outer wall, and not wholly above or below both
ends of the segment. -/
def Considered (axisR : ℝ) (outer : Bool) (p0 p1 : P3) (v w : Pt) : Prop :=
  (outer = true ∨ v.r ≤ axisR ∨ w.r ≤ axisR) ∧
  (p0.z ≤ v.z ∨ p1.z ≤ v.z ∨ p0.z ≤ w.z ∨ p1.z ≤ w.z) ∧
  (v.z ≤ p0.z ∨ v.z ≤ p1.z ∨ w.z ≤ p0.z ∨ w.z ≤ p1.z)

theorem quad_roots (term q : ℝ) :
    (∃ u, 0 ≤ u ∧ u ≤ 1 ∧ u ^ 2 = 2 * term * u + q) ↔
      ¬ term * term + q < 0 ∧ ((term + Real.sqrt (term * term + q) ≥ 0 ∧ term + Real.sqrt (term * term + q) ≤ 1) ∨
        (term - Real.sqrt (term * term + q) ≥ 0 ∧ term - Real.sqrt (term * term + q) ≤ 1)) := by
  constructor
  · rintro ⟨u, h0, h1, hu⟩
    have hsq : term * term + q = (u - term) ^ 2 := by linear_combination -hu
    rw [hsq, Real.sqrt_sq_eq_abs]
    refine ⟨not_lt.2 (sq_nonneg _), ?_⟩
    rcases abs_choice (u - term) with ha | ha
    · left; rw [ha]; constructor <;> linarith
    · right; rw [ha]; constructor <;> linarith
  · rintro ⟨hn, h⟩
    have hs := Real.mul_self_sqrt (not_lt.1 hn)
    generalize Real.sqrt (term * term + q) = r at h hs
    rcases h with ⟨h0, h1⟩ | ⟨h0, h1⟩
    · exact ⟨term + r, h0, h1, by linear_combination hs⟩
    · exact ⟨term - r, h0, h1, by linear_combination hs⟩

/-- What the test of a sloping tile decides. -/
theorem tileHit_sloping (p0 p1 : P3) (v w : Pt) (hz : v.z ≠ w.z) :
    tileHit w v p1 p0 = true ↔ SameSlope p0 p1 v w ∨ MeetsCone p0 p1 v w := by
  have hne : w.z - v.z ≠ 0 := sub_ne_zero.2 (fun h => hz h.symm)
  unfold tileHit
  rw [if_neg (fun h => hz h.symm)]
  simp only
  have hslope : (p0.x - p1.x) * (p0.x - p1.x) + (p0.y - p1.y) * (p0.y - p1.y) -
      (w.r - v.r) * ((p0.z - p1.z) * (1 / (w.z - v.z))) * ((w.r - v.r) * ((p0.z - p1.z) * (1 / (w.z - v.z)))) = 0 ↔
      SameSlope p0 p1 v w := by
    unfold SameSlope
    rw [sub_eq_zero]
    constructor
    · intro h
      have h2 : ((w.r - v.r) * ((p0.z - p1.z) * (1 / (w.z - v.z)))) * ((w.r - v.r) * ((p0.z - p1.z) * (1 / (w.z - v.z)))) *
          (w.z - v.z) ^ 2 = ((w.r - v.r) * (p1.z - p0.z)) ^ 2 := by
        field_simp
        ring
      rw [← h2, ← h]; ring
    · intro h
      field_simp
      linear_combination h
  by_cases hs : SameSlope p0 p1 v w
  · rw [if_pos (hslope.2 hs)]
    exact ⟨fun _ => .inl hs, fun _ => rfl⟩
  · rw [if_neg (fun h => hs (hslope.1 h))]
    have habc := fun h => hs (hslope.1 h)
    generalize hk : (p0.z - p1.z) * (1 / (w.z - v.z)) = kz at habc ⊢
    generalize hm : v.r + (p1.z - v.z) * (1 / (w.z - v.z)) * (w.r - v.r) = m at habc ⊢
    generalize hc : (w.r - v.r) * kz = cc at habc ⊢
    generalize habc' : (p0.x - p1.x) * (p0.x - p1.x) + (p0.y - p1.y) * (p0.y - p1.y) - cc * cc = abc at habc ⊢
    have habc2 : abc ≠ 0 := habc
    have key : MeetsCone p0 p1 v w ↔ ∃ u, 0 ≤ u ∧ u ≤ 1 ∧
        u ^ 2 = 2 * ((cc * m - (p0.x - p1.x) * p1.x - (p0.y - p1.y) * p1.y) * (1 / abc)) * u +
          (m * m - p1.x * p1.x - p1.y * p1.y) * (1 / abc) := by
      constructor
      · rintro ⟨t, s, t0, t1, e1, e2⟩
        simp only [along, between] at e1 e2
        have hs : s = kz * (1 - t) + (p1.z - v.z) * (1 / (w.z - v.z)) := by
          rw [← hk]
          field_simp
          linarith
        have hR : v.r + s * (w.r - v.r) = m + cc * (1 - t) := by
          rw [← hm, ← hc, hs]; ring
        rw [hR] at e2
        refine ⟨1 - t, by linarith, by linarith, ?_⟩
        field_simp
        rw [← habc']
        linear_combination e2
      · rintro ⟨u, u0, u1, hu⟩
        refine ⟨1 - u, kz * u + (p1.z - v.z) * (1 / (w.z - v.z)), by linarith, by linarith, ?_, ?_⟩
        · simp only [along, between]
          rw [← hk]
          field_simp
          ring
        · simp only [along, between]
          have hR : v.r + (kz * u + (p1.z - v.z) * (1 / (w.z - v.z))) * (w.r - v.r) = m + cc * u := by
            rw [← hm, ← hc]; ring
          rw [hR]
          field_simp at hu
          rw [← habc'] at hu
          linear_combination hu
    rw [key, quad_roots]
    generalize (cc * m - (p0.x - p1.x) * p1.x - (p0.y - p1.y) * p1.y) * (1 / abc) = term
    generalize (m * m - p1.x * p1.x - p1.y * p1.y) * (1 / abc) = q
    by_cases hneg : term * term + q < 0
    · rw [if_pos hneg]
      simp [hneg, hs]
    · rw [if_neg hneg, decide_eq_true_iff]
      simp only [hneg, not_false_iff, true_and, hs, false_or]

/-- What the test of a horizontal tile decides. -/
theorem tileHit_level (p0 p1 : P3) (v w : Pt) (hz : v.z = w.z) :
    tileHit w v p1 p0 = true ↔ MeetsMirrored p0 p1 v w := by
  unfold tileHit MeetsMirrored
  rw [if_pos hz.symm]
  by_cases hp : p0.z = p1.z
  · rw [if_pos hp]; simp [hp]
  · rw [if_neg hp]
    by_cases hr : v.r = w.r
    · rw [if_pos hr]; simp [hr]
    · rw [if_neg hr]
      simp only
      rw [decide_eq_true_iff]
      have hd : v.r - w.r ≠ 0 := sub_ne_zero.2 hr
      have hpz : p0.z - p1.z ≠ 0 := sub_ne_zero.2 hp
      -- the point of the line at the height of the tile
      have hu : ∀ t, (along p0 p1 t).z = v.z ↔ 1 - t = (v.z - p1.z) / (p0.z - p1.z) := by
        intro t
        simp only [along]
        rw [eq_div_iff hpz]
        constructor <;> intro h <;> linarith
      have hx : ∀ t, (along p0 p1 t).x ^ 2 + (along p0 p1 t).y ^ 2 =
          (p1.x + (p0.x - p1.x) * (1 - t)) * (p1.x + (p0.x - p1.x) * (1 - t)) +
          (p1.y + (p0.y - p1.y) * (1 - t)) * (p1.y + (p0.y - p1.y) * (1 - t)) := by
        intro t; simp only [along]; ring
      constructor
      · rintro ⟨h0, h1⟩
        refine ⟨hp, hr, 1 - (v.z - p1.z) / (p0.z - p1.z), _, h0, h1, (hu _).2 (by ring), ?_⟩
        rw [hx]
        simp only [between, sub_sub_cancel]
        generalize Real.sqrt _ = q
        field_simp
        ring
      · rintro ⟨-, -, t, s, s0, s1, e1, e2⟩
        rw [hx, (hu t).1 e1] at e2
        generalize Real.sqrt _ = q at e2 ⊢
        simp only [between] at e2
        have : 1 / (v.r - w.r) * (v.r + q) = s := by
          field_simp
          linarith
        rw [this]
        exact ⟨s0, s1⟩

theorem tileTest_iff (axisR : ℝ) (outer : Bool) (p0 p1 : P3) (v w : Pt) :
    tileTest axisR outer p0 p1 v w = true ↔ Considered axisR outer p0 p1 v w ∧ tileHit w v p1 p0 = true := by
  unfold tileTest Considered
  by_cases h1 : outer = false ∧ v.r > axisR ∧ w.r > axisR
  · rw [if_pos h1]
    simp only [Bool.false_eq_true, false_iff]
    rintro ⟨⟨h | h | h, -⟩, -⟩
    · rw [h1.1] at h; cases h
    · linarith [h1.2.1]
    · linarith [h1.2.2]
  · rw [if_neg h1]
    have h1' : outer = true ∨ v.r ≤ axisR ∨ w.r ≤ axisR := by
      by_contra hc
      push Not at hc
      exact h1 ⟨by simpa using hc.1, hc.2.1, hc.2.2⟩
    by_cases h2 : (v.z < p1.z ∧ w.z < p1.z ∧ v.z < p0.z ∧ w.z < p0.z) ∨
        (v.z > p1.z ∧ w.z > p1.z ∧ v.z > p0.z ∧ w.z > p0.z)
    · rw [if_pos h2]
      simp only [Bool.false_eq_true, false_iff]
      rintro ⟨⟨-, ha, hb⟩, -⟩
      rcases h2 with ⟨a, b, c, d⟩ | ⟨a, b, c, d⟩
      · rcases ha with h | h | h | h <;> linarith
      · rcases hb with h | h | h | h <;> linarith
    · rw [if_neg h2]
      have ha : p0.z ≤ v.z ∨ p1.z ≤ v.z ∨ p0.z ≤ w.z ∨ p1.z ≤ w.z := by
        by_contra hc
        push Not at hc
        exact h2 (.inl ⟨hc.2.1, hc.2.2.2, hc.1, hc.2.2.1⟩)
      have hb : v.z ≤ p0.z ∨ v.z ≤ p1.z ∨ w.z ≤ p0.z ∨ w.z ≤ p1.z := by
        by_contra hc
        push Not at hc
        exact h2 (.inr ⟨hc.2.1, hc.2.2.2, hc.1, hc.2.2.1⟩)
      simp only [h1', ha, hb, and_self, true_and]

theorem tileLoop_iff (axisR : ℝ) (outer : Bool) (p0 p1 : P3) (first : Pt) : ∀ dom,
    tileLoop axisR outer p0 p1 first dom = true ↔
      ∃ v w, (Side dom v w ∨ (dom.getLast? = some v ∧ w = first)) ∧ tileTest axisR outer p0 p1 v w = true := by
  intro dom
  constructor
  · induction dom with
    | nil => intro h; cases h
    | cons a dom ih =>
      cases dom with
      | nil =>
        intro h
        exact ⟨a, first, .inr ⟨rfl, rfl⟩, h⟩
      | cons b rest =>
        intro h
        rw [tileLoop, Bool.or_eq_true] at h
        rcases h with h | h
        · exact ⟨a, b, .inl ⟨0, rfl, rfl⟩, h⟩
        · obtain ⟨v, w, hs, ht⟩ := ih h
          refine ⟨v, w, ?_, ht⟩
          rcases hs with hs | ⟨hs, rfl⟩
          · exact .inl (side_cons.2 (.inr hs))
          · exact .inr ⟨by rw [List.getLast?_cons_cons]; exact hs, rfl⟩
  · rintro ⟨v, w, hs, ht⟩
    exact tileLoop_of_tile axisR outer p0 p1 first v w ht dom hs

/-- What the wall test reports, exactly: that some considered tile is sloping and the segment is as
steep as it or meets its whole cone, or is level and the line of the segment passes its mirror
image. -/
theorem C99_exact (axis : Pt) (dom : List Pt) (p0 p1 : P3) (outer : Bool) :
    intersects3D axis dom p0 p1 outer = true ↔ ∃ v w, Tile dom v w ∧ Considered axis.r outer p0 p1 v w ∧
      ((v.z ≠ w.z ∧ (SameSlope p0 p1 v w ∨ MeetsCone p0 p1 v w)) ∨ (v.z = w.z ∧ MeetsMirrored p0 p1 v w)) := by
  have hsplit : ∀ v w, tileTest axis.r outer p0 p1 v w = true ↔ Considered axis.r outer p0 p1 v w ∧
      ((v.z ≠ w.z ∧ (SameSlope p0 p1 v w ∨ MeetsCone p0 p1 v w)) ∨ (v.z = w.z ∧ MeetsMirrored p0 p1 v w)) := by
    intro v w
    rw [tileTest_iff]
    by_cases hz : v.z = w.z
    · rw [tileHit_level p0 p1 v w hz]; simp [hz]
    · rw [tileHit_sloping p0 p1 v w hz]; simp [hz]
  cases dom with
  | nil =>
    simp only [intersects3D, Bool.false_eq_true, false_iff]
    rintro ⟨v, w, (⟨i, h1, -⟩ | ⟨h1, -⟩), -⟩ <;> simp at h1
  | cons a rest =>
    rw [intersects3D, tileLoop_iff]
    constructor
    · rintro ⟨v, w, hs, ht⟩
      refine ⟨v, w, ?_, (hsplit v w).1 ht⟩
      rcases hs with hs | ⟨hs, rfl⟩
      · exact .inl hs
      · exact .inr ⟨hs, rfl⟩
    · rintro ⟨v, w, hs, ht⟩
      refine ⟨v, w, ?_, (hsplit v w).2 ht⟩
      rcases hs with hs | ⟨h1, h2⟩
      · exact .inl hs
      · simp only [List.head?_cons, Option.some.injEq] at h2
        exact .inr ⟨h1, h2.symm⟩

/-- C99, the part that holds: for level segments of positive length the report is right in both
directions, for every wall: it is true exactly when the segment meets a sloping tile (which is not
excluded as outer wall).  A level segment within a level tile is not reported.  Missing: segments
that are not level (`C99_refuted_beyond`, `C99_refuted_vertical`). -/
theorem C99_level_partial (axis : Pt) (dom : List Pt) (p0 p1 : P3) (outer : Bool) (hz : p0.z = p1.z)
    (hne : p0.x ≠ p1.x ∨ p0.y ≠ p1.y) :
    intersects3D axis dom p0 p1 outer = true ↔ ∃ v w, Tile dom v w ∧
      (outer = true ∨ v.r ≤ axis.r ∨ w.r ≤ axis.r) ∧ v.z ≠ w.z ∧ Hits p0 p1 v w := by
  constructor
  · intro h
    obtain ⟨v, w, ht, ⟨hc1, hc2, hc3⟩, hx⟩ := (C99_exact axis dom p0 p1 outer).1 h
    refine ⟨v, w, ht, hc1, ?_⟩
    rcases hx with ⟨hvw, hx⟩ | ⟨-, hx⟩
    · refine ⟨hvw, ?_⟩
      have hd : w.z - v.z ≠ 0 := sub_ne_zero.2 (fun h => hvw h.symm)
      rcases hx with hx | ⟨t, s, t0, t1, e1, e2⟩
      · exfalso
        unfold SameSlope at hx
        rw [← hz, sub_self, mul_zero, zero_pow two_ne_zero] at hx
        rcases mul_eq_zero.1 hx with hx | hx
        · rcases hne with hn | hn
          · have : 0 < (p1.x - p0.x) ^ 2 := by
              have := sub_ne_zero.2 (fun h => hn h.symm); positivity
            nlinarith [sq_nonneg (p1.y - p0.y)]
          · have : 0 < (p1.y - p0.y) ^ 2 := by
              have := sub_ne_zero.2 (fun h => hn h.symm); positivity
            nlinarith [sq_nonneg (p1.x - p0.x)]
        · exact hd (pow_eq_zero_iff two_ne_zero |>.1 hx)
      · refine ⟨t, s, t0, t1, ?_, ?_, e1, e2⟩
        · have e : p0.z = v.z + s * (w.z - v.z) := by
            simp only [along, between, ← hz] at e1; linarith
          by_contra hneg
          push Not at hneg
          rw [← hz] at hc2 hc3
          rcases lt_or_gt_of_ne hvw with hlt | hgt
          · have : s * (w.z - v.z) < 0 := mul_neg_of_neg_of_pos hneg (by linarith)
            rcases hc3 with h | h | h | h <;> linarith
          · have : 0 < s * (w.z - v.z) := mul_pos_of_neg_of_neg hneg (by linarith)
            rcases hc2 with h | h | h | h <;> linarith
        · have e : p0.z = w.z + (s - 1) * (w.z - v.z) := by
            simp only [along, between, ← hz] at e1; linarith
          by_contra hneg
          push Not at hneg
          rw [← hz] at hc2 hc3
          rcases lt_or_gt_of_ne hvw with hlt | hgt
          · have : 0 < (s - 1) * (w.z - v.z) := mul_pos (by linarith) (by linarith)
            rcases hc2 with h | h | h | h <;> linarith
          · have : (s - 1) * (w.z - v.z) < 0 := mul_neg_of_pos_of_neg (by linarith) (by linarith)
            rcases hc3 with h | h | h | h <;> linarith
    · exact absurd hz hx.1
  · rintro ⟨v, w, ht, ho, hvw, hh⟩
    exact C47_no_miss_partial axis dom p0 p1 outer v w ht hvw hh ho

/-- A cause of false alarms, for every wall: a vertical segment is reported whenever it shares a
height with a vertical tile, however far from it. -/
theorem C99_refuted_vertical (axis : Pt) (dom : List Pt) (p0 p1 : P3) (v w : Pt) (ht : Tile dom v w)
    (hx : p0.x = p1.x) (hy : p0.y = p1.y) (hr : v.r = w.r) (hvw : v.z ≠ w.z)
    (hs : p0.z ≤ v.z ∨ p1.z ≤ v.z ∨ p0.z ≤ w.z ∨ p1.z ≤ w.z)
    (hs' : v.z ≤ p0.z ∨ v.z ≤ p1.z ∨ w.z ≤ p0.z ∨ w.z ≤ p1.z) :
    intersects3D axis dom p0 p1 true = true := by
  refine (C99_exact axis dom p0 p1 true).2 ⟨v, w, ht, ⟨.inl rfl, hs, hs'⟩, .inl ⟨hvw, .inl ?_⟩⟩
  simp [SameSlope, hx, hy, hr]

/-- C99 as stated is refuted: a segment that starts at the height of a tile and crosses its cone far
above it is reported, although it meets no tile of the wall. -/
theorem C99_refuted_beyond :
    intersects3D ⟨1, 0⟩ [⟨2, 0⟩, ⟨2, 1⟩] ⟨0, 0, 0⟩ ⟨4, 0, 8⟩ true = true ∧
    ∀ v w, Tile [⟨2, 0⟩, ⟨2, 1⟩] v w → ¬ Hits ⟨0, 0, 0⟩ ⟨4, 0, 8⟩ v w := by
  constructor
  · refine (C99_exact _ _ _ _ _).2 ⟨⟨2, 0⟩, ⟨2, 1⟩, .inl ⟨0, rfl, rfl⟩, ⟨.inl rfl, by norm_num, by norm_num⟩,
      .inl ⟨by norm_num, .inr ⟨1 / 2, 4, by norm_num, by norm_num, ?_, ?_⟩⟩⟩ <;> norm_num [along, between]
  · intro v w ht hh
    have hvw : (v = ⟨2, 0⟩ ∧ w = ⟨2, 1⟩) ∨ (v = ⟨2, 1⟩ ∧ w = ⟨2, 0⟩) := by
      rcases ht with ht | ⟨h1, h2⟩
      · rcases side_cons.1 ht with h | ⟨i, h1, h2⟩
        · exact .inl h
        · simp at h2
      · right
        simp at h1 h2
        exact ⟨h1.symm, h2.symm⟩
    obtain ⟨t, s, t0, t1, s0, s1, e1, e2⟩ := hh
    rcases hvw with ⟨rfl, rfl⟩ | ⟨rfl, rfl⟩ <;> norm_num [along, between] at e1 e2 <;> nlinarith

/-- A level line of sight through a cylinder is reported, one that stops before it is not. -/
example : intersects3D ⟨1, 0⟩ [⟨2, 0⟩, ⟨2, 1⟩] ⟨0, 0, 1 / 2⟩ ⟨4, 0, 1 / 2⟩ true = true := by
  refine (C99_level_partial ⟨1, 0⟩ [⟨2, 0⟩, ⟨2, 1⟩] ⟨0, 0, 1 / 2⟩ ⟨4, 0, 1 / 2⟩ true rfl (.inl (by norm_num))).2 ⟨⟨2, 0⟩, ⟨2, 1⟩, .inl ⟨0, rfl, rfl⟩, .inl rfl,
    by norm_num, 1 / 2, 1 / 2, by norm_num, by norm_num, by norm_num, by norm_num, ?_, ?_⟩ <;>
    norm_num [along, between]

end

end Softlib
