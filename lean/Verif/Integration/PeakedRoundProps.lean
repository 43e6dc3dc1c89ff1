/-
Property C42 with rounded arithmetic: the step that no longer changes the distance.
-/
import Verif.Integration.PeakedRoundModel
import Verif.Integration.PeakedModel
import Verif.General.RoundProps
import Mathlib.Data.Set.Finite.Basic
import Mathlib.Algebra.BigOperators.Intervals

namespace Softlib

open Softlib.Integration Softlib.General

/-! ### Scaling -/

/-- Scaling by a power of two commutes with rounding. -/
theorem flBits_scale (p : ℕ) (x : ℚ) (k : ℤ) : flBits p (x * 2 ^ k) = flBits p x * 2 ^ k := by
  rcases eq_or_ne x 0 with rfl | hx
  · simp [flBits_zero]
  have hk := two_zpow_pos k
  have hl : lastExp p (x * 2 ^ k) = lastExp p x + k := by
    unfold lastExp
    have hpos : 0 < |x| := abs_pos.2 hx
    have hpos' : 0 < |x * 2 ^ k| := abs_pos.2 (mul_ne_zero hx hk.ne')
    have e : |x * 2 ^ k| = |x| * 2 ^ k := by rw [abs_mul, abs_of_pos hk]
    have : Int.log 2 |x * 2 ^ k| = Int.log 2 |x| + k := by
      apply le_antisymm
      · have h := (Int.lt_zpow_iff_log_lt (b := 2) (by norm_num) (x := Int.log 2 |x| + k + 1) hpos').1 (by
          rw [e]
          have := Int.lt_zpow_succ_log_self (b := 2) (by norm_num) |x|
          rw [show Int.log 2 |x| + k + 1 = (Int.log 2 |x| + 1) + k by ring, zpow_add₀ (by norm_num)]
          push_cast at this ⊢
          exact mul_lt_mul_of_pos_right this hk)
        omega
      · apply (Int.zpow_le_iff_le_log (b := 2) (by norm_num) hpos').1
        rw [e]
        have := Int.zpow_log_le_self (b := 2) (by norm_num) hpos
        push_cast at this ⊢
        rw [zpow_add₀ (by norm_num)]
        exact mul_le_mul_of_nonneg_right this hk.le
    rw [this]; ring
  unfold flBits
  rw [hl, zpow_add₀ (by norm_num)]
  have h2 := two_zpow_pos (lastExp p x)
  have : x * 2 ^ k / (2 ^ lastExp p x * 2 ^ k) = x / 2 ^ lastExp p x := by field_simp
  rw [this]
  ring

/-- The first natural number that is lost: one added to it changes nothing. -/
theorem flBits_lost (p : ℕ) (hp : 1 ≤ p) : flBits p (2 ^ (p + 1) + 1) = 2 ^ (p + 1) := by
  have h := flBits_scale p (1 + 1 / 2 / 2 ^ p) ((p + 1 : ℕ) : ℤ)
  rw [flBits_tie p hp, zpow_natCast, one_mul] at h
  have e : (1 + 1 / 2 / 2 ^ p : ℚ) * 2 ^ (p + 1) = 2 ^ (p + 1) + 1 := by
    rw [pow_succ]
    field_simp
  rw [← e]
  exact h

/-! ### The samples -/

/-- The distances from the peak, as they are computed. -/
def distanceR {u : ℚ} (R : Rnd u) (w : ℚ) : ℕ → ℚ
  | 0 => w
  | k + 1 => R.fl (distanceR R w k + w)

/-- The samples to the right: outside the bounds zero, except that the first is always taken. -/
def rightR {u : ℚ} (R : Rnd u) (f : ℚ → ℚ) (b w M : ℚ) (k : ℕ) : ℚ :=
  if k = 0 ∨ R.fl (M + distanceR R w k) < b then f (R.fl (M + distanceR R w k)) else 0

/-- The samples to the left. -/
def leftR {u : ℚ} (R : Rnd u) (f : ℚ → ℚ) (a w M : ℚ) (k : ℕ) : ℚ :=
  if k = 0 ∨ a < R.fl (M - distanceR R w k) then f (R.fl (M - distanceR R w k)) else 0

/-- The rounded sum of the peak value and the first `n` pairs. -/
def innerR {u : ℚ} (R : Rnd u) (F : ℚ) (r l : ℕ → ℚ) : ℕ → ℚ
  | 0 => F
  | k + 1 => R.fl (innerR R F r l k + R.fl (r k + l k))

/-- The rounded trapezoidal sum with the pair `n` halved. -/
def trapezoidR {u : ℚ} (R : Rnd u) (w F : ℚ) (r l : ℕ → ℚ) (n : ℕ) : ℚ :=
  R.fl (w * R.fl (innerR R F r l n + R.fl (1 / 2 * R.fl (r n + l n))))

/-- Properly stopped at the pair `n`. -/
def StoppedR {u : ℚ} (R : Rnd u) (cut F : ℚ) (r l : ℕ → ℚ) (n : ℕ) : Prop :=
  (∀ i, i < n → r i ≤ F ∧ l i ≤ F ∧ R.fl (F * cut) < max (r i) (l i)) ∧ max (r n) (l n) ≤ R.fl (F * cut)

/-- The distances reach every length that is not too long for the step. -/
theorem distanceR_reach {u : ℚ} (R : Rnd u) {w L : ℚ} (hw : 0 < w) (hL0 : 0 ≤ L) (hL : 2 * u * (L + w) ≤ w) :
    ∃ n, 1 ≤ n ∧ L ≤ distanceR R w n := by
  by_contra hc
  push Not at hc
  have hu := R.u_nonneg
  have grow : ∀ n : ℕ, w + n * (w / 2) ≤ distanceR R w n := by
    intro n
    induction n with
    | zero => simp [distanceR]
    | succ n ih =>
      have hlt : distanceR R w n ≤ max L w := by
        rcases Nat.eq_zero_or_pos n with rfl | hn
        · exact le_max_right _ _
        · exact le_trans (hc n hn).le (le_max_left _ _)
      have hpos : 0 ≤ distanceR R w n + w := by
        have : (0 : ℚ) ≤ n * (w / 2) := by positivity
        linarith
      have h := R.fl_ge hpos
      rw [distanceR]
      push_cast
      by_cases hn : distanceR R w n ≤ L
      · have : u * (distanceR R w n + w) ≤ u * (L + w) := mul_le_mul_of_nonneg_left (by linarith) hu
        nlinarith
      · have h0 : n = 0 := by
          by_contra h0
          exact hn (hc n (Nat.one_le_iff_ne_zero.2 h0)).le
        subst h0
        have h1 := hc 1 le_rfl
        rw [distanceR] at h1
        simp only [distanceR] at h1 hn
        exfalso
        have h3 := R.fl_ge (x := w + w) (by linarith)
        have hu1 : 2 * u * w ≤ w := by
          have : 0 ≤ u * L := mul_nonneg hu hL0
          linarith
        linarith
  obtain ⟨n, hn⟩ := exists_nat_gt (L / (w / 2))
  rw [div_lt_iff₀ (by linarith)] at hn
  have h1 := grow (n + 1)
  have h2 := hc (n + 1) (by omega)
  push_cast at h1
  nlinarith

/-- What one call does: from the pair `n` on it ends properly, or starts again at a larger sample. -/
theorem peak_callR {u : ℚ} (R : Rnd u) (f : ℚ → ℚ) (a b w cut M F L : ℚ) (hF : 0 < F) (hc : 0 ≤ cut)
    (ha : R.Is a) (hb : R.Is b) (hbL : b - M ≤ L) (haL : M - a ≤ L) (N : ℕ) (hN : 1 ≤ N) (hD : L ≤ distanceR R w N) :
    ∀ d n, n + d = N →
    (∀ i, i < n → rightR R f b w M i ≤ F ∧ leftR R f a w M i ≤ F ∧ R.fl (F * cut) < max (rightR R f b w M i) (leftR R f a w M i)) →
    (∃ fuel m, ∀ more, peakLoopR R f a b w cut (fuel + more) M F (innerR R F (rightR R f b w M) (leftR R f a w M) n)
        (distanceR R w n) (rightR R f b w M n) (leftR R f a w M n) =
        .ok (trapezoidR R w F (rightR R f b w M) (leftR R f a w M) m) ∧ StoppedR R cut F (rightR R f b w M) (leftR R f a w M) m) ∨
    (∃ (fuel : ℕ) (M' : ℚ), R.Is M' ∧ F < f M' ∧ ∀ more, peakLoopR R f a b w cut (fuel + more) M F
        (innerR R F (rightR R f b w M) (leftR R f a w M) n) (distanceR R w n) (rightR R f b w M n) (leftR R f a w M n) =
        peakLoopR R f a b w cut more M' (f M') (f M') w (f (R.fl (M' + w))) (f (R.fl (M' - w)))) := by
  intro d
  induction d with
  | zero =>
    intro n hn hall
    left
    have hn' : n = N := by omega
    subst hn'
    have hR : rightR R f b w M n = 0 := by
      unfold rightR
      rw [if_neg]
      rintro (h | h)
      · omega
      · exact absurd (R.le_fl_of hb (show b ≤ M + distanceR R w n by linarith)) (not_le.2 h)
    have hL : leftR R f a w M n = 0 := by
      unfold leftR
      rw [if_neg]
      rintro (h | h)
      · omega
      · exact absurd (R.fl_le_of ha (show M - distanceR R w n ≤ a by linarith)) (not_le.2 h)
    have hend : max (rightR R f b w M n) (leftR R f a w M n) ≤ R.fl (F * cut) := by
      rw [hR, hL, max_self]; exact R.fl_nonneg (by positivity)
    refine ⟨1, n, fun more => ⟨?_, hall, hend⟩⟩
    rw [Nat.add_comm, peakLoopR, if_neg (not_lt.2 hend), trapezoidR]
  | succ d ih =>
    intro n hn hall
    by_cases hgo : max (rightR R f b w M n) (leftR R f a w M n) > R.fl (F * cut)
    · by_cases hr : rightR R f b w M n > F
      · right
        have hv : rightR R f b w M n = f (R.fl (M + distanceR R w n)) := by
          unfold rightR at hr ⊢
          split
          · rfl
          · rename_i h; rw [if_neg h] at hr; linarith
        refine ⟨1, R.fl (M + distanceR R w n), R.idem _, by rw [← hv]; exact hr, fun more => ?_⟩
        rw [Nat.add_comm, peakLoopR, if_pos hgo, if_pos hr, hv]
      · by_cases hl : leftR R f a w M n > F
        · right
          have hv : leftR R f a w M n = f (R.fl (M - distanceR R w n)) := by
            unfold leftR at hl ⊢
            split
            · rfl
            · rename_i h; rw [if_neg h] at hl; linarith
          refine ⟨1, R.fl (M - distanceR R w n), R.idem _, by rw [← hv]; exact hl, fun more => ?_⟩
          rw [Nat.add_comm, peakLoopR, if_pos hgo, if_neg hr, if_pos hl, hv]
        · have hstep : ∀ more, peakLoopR R f a b w cut (more + 1) M F (innerR R F (rightR R f b w M) (leftR R f a w M) n)
              (distanceR R w n) (rightR R f b w M n) (leftR R f a w M n) =
              peakLoopR R f a b w cut more M F (innerR R F (rightR R f b w M) (leftR R f a w M) (n + 1))
              (distanceR R w (n + 1)) (rightR R f b w M (n + 1)) (leftR R f a w M (n + 1)) := by
            intro more
            rw [peakLoopR, if_pos hgo, if_neg hr, if_neg hl, innerR]
            have e1 : rightR R f b w M (n + 1) = if R.fl (M + R.fl (distanceR R w n + w)) < b
                then f (R.fl (M + R.fl (distanceR R w n + w))) else 0 := by
              unfold rightR
              simp [distanceR]
            have e2 : leftR R f a w M (n + 1) = if R.fl (M - R.fl (distanceR R w n + w)) > a
                then f (R.fl (M - R.fl (distanceR R w n + w))) else 0 := by
              unfold leftR
              simp [distanceR]
            rw [e1, e2, distanceR]
          have hnext := ih (n + 1) (by omega) (by
            intro i hi
            rcases Nat.lt_or_ge i n with h | h
            · exact hall i h
            · have : i = n := by omega
              subst this
              exact ⟨not_lt.1 hr, not_lt.1 hl, hgo⟩)
          rcases hnext with ⟨fuel, m, h⟩ | ⟨fuel, M', h1, h2, h⟩
          · left
            refine ⟨fuel + 1, m, fun more => ?_⟩
            rw [show fuel + 1 + more = fuel + more + 1 from by omega, hstep]
            exact h more
          · right
            refine ⟨fuel + 1, M', h1, h2, fun more => ?_⟩
            rw [show fuel + 1 + more = fuel + more + 1 from by omega, hstep]
            exact h more
    · left
      refine ⟨1, n, fun more => ⟨?_, hall, not_lt.1 hgo⟩⟩
      rw [Nat.add_comm, peakLoopR, if_neg hgo, trapezoidR]

/-- **C42** With rounding: for a positive peak value, positive step and non-negative cutoff, evaluation
ends whenever the integrand exceeds the peak value at finitely many numbers only, and the step is not
lost against the distance to the bounds (`hL`; see `C42_rounded_double`).  The result is the rounded trapezoidal sum around the largest number found.
Missing: steps that are lost (`C42_refuted_rounded`), and other integrands. -/
theorem C42_rounded_partial {u : ℚ} (R : Rnd u) (f : ℚ → ℚ) (a b w cut M F L : ℚ) (hF : 0 < F) (hw : 0 < w) (hc : 0 ≤ cut)
    (ha : R.Is a) (hb : R.Is b) (hfin : {x | R.Is x ∧ F < f x}.Finite)
    (h0 : 0 ≤ L) (hL : 2 * u * (L + w) ≤ w) (hM : b - M ≤ L ∧ M - a ≤ L)
    (hx : ∀ x, R.Is x → F < f x → b - x ≤ L ∧ x - a ≤ L) :
    ∃ (fuel n : ℕ) (M' F' : ℚ), F ≤ F' ∧ (M' = M ∧ F' = F ∨ R.Is M' ∧ F' = f M' ∧ F < F') ∧
      (∀ more, evaluateR R f a b w cut (fuel + more) M F =
        .ok (trapezoidR R w F' (rightR R f b w M') (leftR R f a w M') n)) ∧
      StoppedR R cut F' (rightR R f b w M') (leftR R f a w M') n := by
  classical
  obtain ⟨N, hN, hD⟩ := distanceR_reach R hw h0 hL
  have key : ∀ (c : ℕ) (K G : ℚ), F ≤ G → (K = M ∧ G = F ∨ R.Is K ∧ G = f K ∧ F < G) → b - K ≤ L ∧ K - a ≤ L →
      (hfin.toFinset.filter (fun x => G < f x)).card ≤ c →
      ∃ (fuel n : ℕ) (M' F' : ℚ), F ≤ F' ∧ (M' = M ∧ F' = F ∨ R.Is M' ∧ F' = f M' ∧ F < F') ∧
      (∀ more, peakLoopR R f a b w cut (fuel + more) K G G w (f (R.fl (K + w))) (f (R.fl (K - w))) =
        .ok (trapezoidR R w F' (rightR R f b w M') (leftR R f a w M') n)) ∧
      StoppedR R cut F' (rightR R f b w M') (leftR R f a w M') n := by
    intro c
    induction c with
    | zero =>
      intro K G hG hK hb' hcard
      rcases peak_callR R f a b w cut K G L (by linarith) hc ha hb hb'.1 hb'.2 N hN hD N 0 (by omega)
        (fun i hi => absurd hi (Nat.not_lt_zero i)) with ⟨fuel, m, h⟩ | ⟨fuel, K', h1, h2, h⟩
      · refine ⟨fuel, m, K, G, hG, hK, fun more => ?_, (h 0).2⟩
        have := (h more).1
        simpa [innerR, distanceR, rightR, leftR] using this
      · exfalso
        have : K' ∈ hfin.toFinset.filter (fun x => G < f x) := by
          simp only [Finset.mem_filter, Set.Finite.mem_toFinset, Set.mem_setOf_eq]
          exact ⟨⟨h1, lt_of_le_of_lt hG h2⟩, h2⟩
        have := Finset.card_pos.2 ⟨_, this⟩
        omega
    | succ c ih =>
      intro K G hG hK hb' hcard
      rcases peak_callR R f a b w cut K G L (by linarith) hc ha hb hb'.1 hb'.2 N hN hD N 0 (by omega)
        (fun i hi => absurd hi (Nat.not_lt_zero i)) with ⟨fuel, m, h⟩ | ⟨fuel, K', h1, h2, h⟩
      · refine ⟨fuel, m, K, G, hG, hK, fun more => ?_, (h 0).2⟩
        have := (h more).1
        simpa [innerR, distanceR, rightR, leftR] using this
      · have hF' : F < f K' := lt_of_le_of_lt hG h2
        obtain ⟨fuel', n, M', F', g1, g2, g3, g4⟩ := ih K' (f K') hF'.le (Or.inr ⟨h1, rfl, hF'⟩) (hx K' h1 hF') (by
          have hlt : (hfin.toFinset.filter (fun x => f K' < f x)).card < (hfin.toFinset.filter (fun x => G < f x)).card := by
            apply Finset.card_lt_card
            rw [Finset.ssubset_iff_of_subset]
            · refine ⟨K', ?_, ?_⟩
              · simp only [Finset.mem_filter, Set.Finite.mem_toFinset, Set.mem_setOf_eq]
                exact ⟨⟨h1, hF'⟩, h2⟩
              · simp
            · intro x hx'
              simp only [Finset.mem_filter] at hx' ⊢
              exact ⟨hx'.1, lt_trans h2 hx'.2⟩
          omega)
        refine ⟨fuel + fuel', n, M', F', g1, g2, fun more => ?_, g4⟩
        have := h (fuel' + more)
        rw [g3 more] at this
        rw [Nat.add_assoc]
        simpa [innerR, distanceR, rightR, leftR] using this
  obtain ⟨fuel, n, M', F', g1, g2, g3, g4⟩ := key _ M F le_rfl (Or.inl ⟨rfl, rfl⟩) hM le_rfl
  refine ⟨fuel, n, M', F', g1, g2, fun more => ?_, g4⟩
  rw [evaluateR, if_neg hw.ne']
  exact g3 more

/-- **C42** In `double` precision, for an integrand that does not exceed the peak value: bounds within
2^52 - 1 steps suffice. -/
theorem C42_rounded_double (f : ℚ → ℚ) (a b w cut M F : ℚ) (hF : 0 < F) (hw : 0 < w) (hc : 0 ≤ cut)
    (ha : (rndBits 52).Is a) (hb : (rndBits 52).Is b) (hf : ∀ x, f x ≤ F) (hM : b - M ≤ (2 ^ 52 - 1) * w ∧ M - a ≤ (2 ^ 52 - 1) * w) :
    ∃ (fuel n : ℕ), (∀ more, evaluateR (rndBits 52) f a b w cut (fuel + more) M F =
        .ok (trapezoidR (rndBits 52) w F (rightR (rndBits 52) f b w M) (leftR (rndBits 52) f a w M) n)) ∧
      StoppedR (rndBits 52) cut F (rightR (rndBits 52) f b w M) (leftR (rndBits 52) f a w M) n := by
  have hno : ∀ x, ¬ F < f x := fun x => not_lt.2 (hf x)
  obtain ⟨fuel, n, M', F', h1, h2, h3, h4⟩ := C42_rounded_partial (rndBits 52) f a b w cut M F ((2 ^ 52 - 1) * w) hF hw hc ha hb
    (by simp [hno]) (by nlinarith) (by norm_num; linarith) hM (fun x _ h => absurd h (hno x))
  rcases h2 with ⟨rfl, rfl⟩ | ⟨-, h, h'⟩
  · exact ⟨fuel, n, h3, h4⟩
  · rw [h] at h'
    exact absurd h' (hno _)

/-! ### The error of the sum -/

/-- The exact trapezoidal sum of the same samples, with the pair `n` halved. -/
def exactSum (w F : ℚ) (r l : ℕ → ℚ) (n : ℕ) : ℚ :=
  w * (F + ∑ i ∈ Finset.range n, (r i + l i) + 1 / 2 * (r n + l n))

theorem innerR_bounds {u : ℚ} (R : Rnd u) (hu1 : u ≤ 1) (F : ℚ) (r l : ℕ → ℚ) (hF : 0 ≤ F) (hr : ∀ i, 0 ≤ r i) (hl : ∀ i, 0 ≤ l i) (n : ℕ) :
    0 ≤ innerR R F r l n ∧ innerR R F r l n ≤ (1 + u) ^ (n + 1) * (F + ∑ i ∈ Finset.range n, (r i + l i)) ∧
      (1 - u) ^ (n + 1) * (F + ∑ i ∈ Finset.range n, (r i + l i)) ≤ innerR R F r l n := by
  have hu := R.u_nonneg
  induction n with
  | zero =>
    simp only [innerR, Finset.range_zero, Finset.sum_empty, add_zero, zero_add, pow_one]
    exact ⟨hF, by nlinarith, by nlinarith⟩
  | succ n ih =>
    obtain ⟨h0, h1, h2⟩ := ih
    rw [innerR, Finset.sum_range_succ]
    have hS : 0 ≤ ∑ i ∈ Finset.range n, (r i + l i) := Finset.sum_nonneg (fun i _ => add_nonneg (hr i) (hl i))
    generalize hT : ∑ i ∈ Finset.range n, (r i + l i) = T at *
    have hp : 0 ≤ r n + l n := add_nonneg (hr n) (hl n)
    generalize r n + l n = q at *
    generalize innerR R F r l n = x at *
    have hq := R.fl_nonneg hp
    have hq1 := R.fl_le hp
    have hq2 := R.fl_ge hp
    have hs : 0 ≤ x + R.fl q := by linarith
    have a1 : (1 + u) ≤ (1 + u) ^ (n + 1) := le_self_pow₀ (by linarith) (by omega)
    have a2 : (1 - u) ^ (n + 1) ≤ (1 - u) := pow_le_of_le_one (by linarith) (by linarith) (by omega)
    refine ⟨R.fl_nonneg hs, ?_, ?_⟩
    · refine le_trans (R.fl_le hs) ?_
      rw [pow_succ, mul_comm _ (1 + u), mul_assoc]
      apply mul_le_mul_of_nonneg_left _ (by linarith)
      have := mul_le_mul_of_nonneg_right a1 hp
      nlinarith
    · refine le_trans ?_ (R.fl_ge hs)
      rw [pow_succ, mul_comm _ (1 - u), mul_assoc]
      apply mul_le_mul_of_nonneg_left _ (by linarith)
      have := mul_le_mul_of_nonneg_right a2 hp
      nlinarith

/-- **C42** For samples that are not negative the rounded sum is close to the exact trapezoidal sum of the
same samples: the relative error is about the number of samples times the precision. -/
theorem C42_rounded_error {u : ℚ} (R : Rnd u) (hu1 : u ≤ 1) (w F : ℚ) (r l : ℕ → ℚ) (hw : 0 ≤ w) (hF : 0 ≤ F)
    (hr : ∀ i, 0 ≤ r i) (hl : ∀ i, 0 ≤ l i) (n : ℕ) :
    (1 - u) ^ (n + 4) * exactSum w F r l n ≤ trapezoidR R w F r l n ∧
      trapezoidR R w F r l n ≤ (1 + u) ^ (n + 4) * exactSum w F r l n := by
  have hu := R.u_nonneg
  obtain ⟨h0, h1, h2⟩ := innerR_bounds R hu1 F r l hF hr hl n
  unfold trapezoidR exactSum
  have hS : 0 ≤ F + ∑ i ∈ Finset.range n, (r i + l i) :=
    add_nonneg hF (Finset.sum_nonneg (fun i _ => add_nonneg (hr i) (hl i)))
  generalize F + ∑ i ∈ Finset.range n, (r i + l i) = S at *
  generalize innerR R F r l n = x at *
  have hp : 0 ≤ r n + l n := add_nonneg (hr n) (hl n)
  generalize r n + l n = q at *
  have hq := R.fl_nonneg hp
  have hq1 := R.fl_le hp
  have hq2 := R.fl_ge hp
  have hh : 0 ≤ 1 / 2 * R.fl q := by linarith
  have hh0 := R.fl_nonneg hh
  have hh1 := R.fl_le hh
  have hh2 := R.fl_ge hh
  have hs : 0 ≤ x + R.fl (1 / 2 * R.fl q) := by linarith
  have hs0 := R.fl_nonneg hs
  have hs1 := R.fl_le hs
  have hs2 := R.fl_ge hs
  have hws : 0 ≤ w * R.fl (x + R.fl (1 / 2 * R.fl q)) := mul_nonneg hw hs0
  have b1 : R.fl (1 / 2 * R.fl q) ≤ (1 + u) ^ 2 * (1 / 2 * q) := by nlinarith
  have b2 : (1 - u) ^ 2 * (1 / 2 * q) ≤ R.fl (1 / 2 * R.fl q) := by nlinarith
  have hup : 0 ≤ 1 + u := by linarith
  have hum : 0 ≤ 1 - u := by linarith
  have p1 : (1 + u) ^ (n + 1) ≤ (1 + u) ^ (n + 2) := pow_le_pow_right₀ (by linarith) (by omega)
  have p2 : (1 + u) ^ 2 ≤ (1 + u) ^ (n + 2) := pow_le_pow_right₀ (by linarith) (by omega)
  have m1 : (1 - u) ^ (n + 2) ≤ (1 - u) ^ (n + 1) := pow_le_pow_of_le_one hum (by linarith) (by omega)
  have m2 : (1 - u) ^ (n + 2) ≤ (1 - u) ^ 2 := pow_le_pow_of_le_one hum (by linarith) (by omega)
  have c1 : x + R.fl (1 / 2 * R.fl q) ≤ (1 + u) ^ (n + 2) * (S + 1 / 2 * q) := by
    have := mul_le_mul_of_nonneg_right p1 hS
    have := mul_le_mul_of_nonneg_right p2 (show 0 ≤ 1 / 2 * q by linarith)
    rw [mul_add]
    linarith
  have c2 : (1 - u) ^ (n + 2) * (S + 1 / 2 * q) ≤ x + R.fl (1 / 2 * R.fl q) := by
    have := mul_le_mul_of_nonneg_right m1 hS
    have := mul_le_mul_of_nonneg_right m2 (show 0 ≤ 1 / 2 * q by linarith)
    rw [mul_add]
    linarith
  constructor
  · refine le_trans ?_ (R.fl_ge hws)
    calc (1 - u) ^ (n + 4) * (w * (S + 1 / 2 * q)) = (1 - u) * (w * ((1 - u) * ((1 - u) ^ (n + 2) * (S + 1 / 2 * q)))) := by ring
      _ ≤ _ := by
        apply mul_le_mul_of_nonneg_left _ hum
        apply mul_le_mul_of_nonneg_left _ hw
        exact le_trans (mul_le_mul_of_nonneg_left c2 hum) hs2
  · refine le_trans (R.fl_le hws) ?_
    calc (1 + u) * (w * R.fl (x + R.fl (1 / 2 * R.fl q))) ≤ (1 + u) * (w * ((1 + u) * ((1 + u) ^ (n + 2) * (S + 1 / 2 * q)))) := by
          apply mul_le_mul_of_nonneg_left _ hup
          apply mul_le_mul_of_nonneg_left _ hw
          exact le_trans hs1 (mul_le_mul_of_nonneg_left c1 hup)
      _ = _ := by ring

/-! ### Steps that are lost -/

/-- The distances of a unit step. -/
theorem distanceR_unit (p : ℕ) (hp : 1 ≤ p) (n : ℕ) : distanceR (rndBits p) 1 n = min ((n : ℚ) + 1) (2 ^ (p + 1)) := by
  induction n with
  | zero =>
    have : (1 : ℚ) ≤ 2 ^ (p + 1) := one_le_pow₀ (by norm_num)
    simp [distanceR, this]
  | succ n ih =>
    rw [distanceR, ih]
    rcases le_or_gt (2 ^ (p + 1)) (n + 1) with h | h
    · have h' : (2 : ℚ) ^ (p + 1) ≤ n + 1 := by exact_mod_cast h
      rw [min_eq_right h', min_eq_right (by push_cast; linarith)]
      exact flBits_lost p hp
    · have h' : (n : ℚ) + 1 + 1 ≤ 2 ^ (p + 1) := by exact_mod_cast h
      rw [min_eq_left (by linarith), min_eq_left (by push_cast; linarith)]
      have := flBits_exact p (e := 0) (m := (n : ℤ) + 1 + 1) (by
        rw [abs_of_nonneg (by positivity)]
        exact_mod_cast h)
      simpa [rndBits] using this

/-- **C42, refuted** with rounding, for every number of digits: for the constant integrand, which never
exceeds its peak value, with the bounds at a distance of more than 2^(p+1) steps, evaluation does not
end although the bounds are reached after finitely many exact steps. -/
theorem C42_refuted_rounded (p : ℕ) (hp : 1 ≤ p) (fuel : ℕ) :
    evaluateR (rndBits p) (fun _ => 1) (-2 ^ (p + 2)) (2 ^ (p + 2)) 1 0 fuel 0 1 = .fuel := by
  have hz : (rndBits p).fl 0 = 0 := (rndBits p).fl_zero
  have hbd : ∀ n, 0 ≤ distanceR (rndBits p) 1 n ∧ distanceR (rndBits p) 1 n ≤ 2 ^ (p + 1) := by
    intro n
    rw [distanceR_unit p hp]
    exact ⟨le_min (by positivity) (by positivity), min_le_right _ _⟩
  have his : (rndBits p).fl (2 ^ (p + 1)) = 2 ^ (p + 1) := by
    have := flBits_exact p (e := ((p + 1 : ℕ) : ℤ)) (m := 1) (by
      rw [abs_one]; exact one_le_pow₀ (by norm_num))
    rw [zpow_natCast] at this
    simpa [rndBits] using this
  have hneg : (rndBits p).fl (-2 ^ (p + 1)) = -2 ^ (p + 1) := by
    have := flBits_neg p (2 ^ (p + 1))
    rw [show flBits p (2 ^ (p + 1)) = 2 ^ (p + 1) from his] at this
    exact this
  have hpow : (2 : ℚ) ^ (p + 1) < 2 ^ (p + 2) := pow_lt_pow_right₀ (by norm_num) (by omega)
  have key : ∀ (fuel n : ℕ) (s : ℚ), peakLoopR (rndBits p) (fun _ => 1) (-2 ^ (p + 2)) (2 ^ (p + 2)) 1 0 fuel 0 1 s
      (distanceR (rndBits p) 1 n) 1 1 = .fuel := by
    intro fuel
    induction fuel with
    | zero => intro n s; rfl
    | succ fuel ih =>
      intro n s
      rw [peakLoopR, mul_zero, hz, if_pos (by norm_num), if_neg (by norm_num)]
      simp only
      have h1 : (rndBits p).fl (0 + (rndBits p).fl (distanceR (rndBits p) 1 n + 1)) < 2 ^ (p + 2) := by
        refine lt_of_le_of_lt (Rnd.fl_le_of _ his ?_) hpow
        rw [zero_add]
        exact (hbd (n + 1)).2
      have h2 : (rndBits p).fl (0 - (rndBits p).fl (distanceR (rndBits p) 1 n + 1)) > -2 ^ (p + 2) := by
        refine lt_of_lt_of_le (show (-2 ^ (p + 2) : ℚ) < -2 ^ (p + 1) by linarith) (Rnd.le_fl_of _ hneg ?_)
        rw [zero_sub, neg_le_neg_iff]
        exact (hbd (n + 1)).2
      rw [if_pos h1, if_pos h2]
      exact ih (n + 1) _
  rw [evaluateR, if_neg one_ne_zero]
  exact key fuel 0 1

/-- **C42** The same evaluation with exact arithmetic ends. -/
theorem C42_lost_exactly (p : ℕ) : ∃ fuel n, ∀ more,
    evaluateR exactRnd (fun _ => 1) (-2 ^ (p + 2)) (2 ^ (p + 2)) 1 0 (fuel + more) 0 1 =
      .ok (trapezoidR exactRnd 1 1 (rightR exactRnd (fun _ => 1) (2 ^ (p + 2)) 1 0)
        (leftR exactRnd (fun _ => 1) (-2 ^ (p + 2)) 1 0) n) := by
  have hp : (0 : ℚ) < 2 ^ (p + 2) := by positivity
  obtain ⟨fuel, n, M', F', h1, h2, h3, -⟩ := C42_rounded_partial exactRnd (fun _ => 1) (-2 ^ (p + 2)) (2 ^ (p + 2)) 1 0 0 1 (2 ^ (p + 2))
    one_pos one_pos le_rfl rfl rfl (by simp) hp.le (by simp) (by constructor <;> linarith) (fun x _ h => absurd h (lt_irrefl _))
  rcases h2 with ⟨rfl, rfl⟩ | ⟨-, h, h'⟩
  · exact ⟨fuel, n, h3⟩
  · rw [h] at h'
    exact absurd h' (lt_irrefl _)

/-! ### Without rounding -/

/-- The loop without rounding is the loop of C42. -/
theorem peakLoopR_exact (f : ℚ → ℚ) (g : ℝ → ℝ) (hg : ∀ q : ℚ, g q = f q) (a b w cut : ℚ) :
    ∀ (fuel : ℕ) (M F s d fp fm : ℚ),
    peakLoop g a b w cut fuel M F s d fp fm =
      match peakLoopR exactRnd f a b w cut fuel M F s d fp fm with
      | .zeroFalloff => .zeroFalloff
      | .fuel => .fuel
      | .ok v => .ok v := by
  have hid : ∀ x : ℚ, exactRnd.fl x = x := fun _ => rfl
  intro fuel
  induction fuel with
  | zero => intros; rfl
  | succ fuel ih =>
    intro M F s d fp fm
    rw [peakLoop, peakLoopR]
    simp only [hid]
    have c1 : (max (fp : ℝ) fm > F * cut) ↔ max fp fm > F * cut := by
      rw [gt_iff_lt, gt_iff_lt]; exact_mod_cast Iff.rfl
    have c2 : ((fp : ℝ) > F) ↔ fp > F := by exact_mod_cast Iff.rfl
    have c3 : ((fm : ℝ) > F) ↔ fm > F := by exact_mod_cast Iff.rfl
    by_cases h1 : max fp fm > F * cut
    · rw [if_pos h1, if_pos (c1.2 h1)]
      by_cases h2 : fp > F
      · rw [if_pos h2, if_pos (c2.2 h2), ← ih]
        rw [← hg, ← hg]; push_cast; rfl
      · rw [if_neg h2, if_neg (fun h => h2 (c2.1 h))]
        by_cases h3 : fm > F
        · rw [if_pos h3, if_pos (c3.2 h3), ← ih]
          rw [← hg, ← hg]; push_cast; rfl
        · rw [if_neg h3, if_neg (fun h => h3 (c3.1 h)), ← ih]
          have e1 : (if (M : ℝ) + (d + w) < b then g (M + (d + w)) else 0) =
              ((if M + (d + w) < b then f (M + (d + w)) else 0 : ℚ) : ℝ) := by
            have : ((M : ℝ) + (d + w) < b) ↔ M + (d + w) < b := by exact_mod_cast Iff.rfl
            simp only [this]
            split
            · rw [← hg]; push_cast; rfl
            · simp
          have e2 : (if (M : ℝ) - (d + w) > a then g (M - (d + w)) else 0) =
              ((if M - (d + w) > a then f (M - (d + w)) else 0 : ℚ) : ℝ) := by
            have : ((M : ℝ) - (d + w) > a) ↔ M - (d + w) > a := by exact_mod_cast Iff.rfl
            simp only [this]
            split
            · rw [← hg]; push_cast; rfl
            · simp
          rw [e1, e2]
          push_cast
          rfl
    · rw [if_neg h1, if_neg (fun h => h1 (c1.1 h))]
      push_cast
      rfl

/-- **C42** Without rounding this is the evaluation of the other C42 theorems. -/
theorem C42_rounded_exact (f : ℚ → ℚ) (g : ℝ → ℝ) (hg : ∀ q : ℚ, g q = f q) (a b w cut M F : ℚ) (fuel : ℕ) :
    evaluate g a b w cut fuel M F =
      match evaluateR exactRnd f a b w cut fuel M F with
      | .zeroFalloff => .zeroFalloff
      | .fuel => .fuel
      | .ok v => .ok v := by
  have hid : ∀ x : ℚ, exactRnd.fl x = x := fun _ => rfl
  unfold evaluate evaluateR
  by_cases h : w = 0
  · subst h
    simp
  · rw [if_neg h, if_neg (by exact_mod_cast h), ← peakLoopR_exact f g hg]
    simp only [hid]
    rw [← hg, ← hg]
    push_cast
    rfl

/-- The premises of `C42_rounded_double`: a parabola with peak value 1 at 0. -/
example : ∃ (fuel n : ℕ), (∀ more, evaluateR (rndBits 52) (fun x => 1 - x * x) (-1) 1 (1 / 8) (1 / 2) (fuel + more) 0 1 =
        .ok (trapezoidR (rndBits 52) (1 / 8) 1 (rightR (rndBits 52) (fun x => 1 - x * x) 1 (1 / 8) 0)
          (leftR (rndBits 52) (fun x => 1 - x * x) (-1) (1 / 8) 0) n)) ∧
      StoppedR (rndBits 52) (1 / 2) 1 (rightR (rndBits 52) (fun x => 1 - x * x) 1 (1 / 8) 0)
        (leftR (rndBits 52) (fun x => 1 - x * x) (-1) (1 / 8) 0) n := by
  have h1 : (rndBits 52).Is 1 := by have := rndBits_int 1 (by norm_num); simpa [Rnd.Is] using this
  have h2 : (rndBits 52).Is (-1) := by have := rndBits_int (-1) (by norm_num); simpa [Rnd.Is] using this
  exact C42_rounded_double (fun x => 1 - x * x) (-1) 1 (1 / 8) (1 / 2) 0 1 (by norm_num) (by norm_num) (by norm_num) h2 h1
    (fun x => by nlinarith [sq_nonneg x]) (by norm_num)

end Softlib
