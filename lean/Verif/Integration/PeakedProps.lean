/-
Properties C42 and C43: peaked integration and golden-section search.
-/
import Verif.Integration.PeakedModel
import Mathlib.Tactic.Linarith
import Mathlib.Tactic.Ring
import Mathlib.Tactic.NormNum
import Mathlib.Tactic.FieldSimp
import Mathlib.Algebra.BigOperators.Ring.Finset
import Mathlib.Data.Int.Interval
import Mathlib.Algebra.BigOperators.Intervals

namespace Softlib

open Softlib.Integration

noncomputable section

/-! ### C42 -/

/-- Sample at distance `i` steps to the right of the peak: outside the bounds zero, except that
the first sample is always taken. -/
def sampleR (f : ℝ → ℝ) (b w M : ℝ) (i : Nat) : ℝ := if i = 1 ∨ M + i * w < b then f (M + i * w) else 0

/-- Sample at distance `i` steps to the left of the peak. -/
def sampleL (f : ℝ → ℝ) (a w M : ℝ) (i : Nat) : ℝ := if i = 1 ∨ M - i * w > a then f (M - i * w) else 0

/-- The trapezoidal sum around the peak `M` with value `F` and `n` samples on each side, the
outermost pair halved. -/
def trapezoid (f : ℝ → ℝ) (a b w M F : ℝ) (n : Nat) : ℝ :=
  w * (F + ∑ i ∈ Finset.Ico 1 n, (sampleR f b w M i + sampleL f a w M i) +
    1 / 2 * (sampleR f b w M n + sampleL f a w M n))

/-- A trapezoidal sum that stopped properly: all inner samples are at most the peak, every inner
pair exceeds the cutoff and the outermost pair does not. -/
def Stopped (f : ℝ → ℝ) (a b w cut M F : ℝ) (n : Nat) : Prop :=
  1 ≤ n ∧ (∀ i, 1 ≤ i → i < n → sampleR f b w M i ≤ F ∧ sampleL f a w M i ≤ F ∧
    F * cut < max (sampleR f b w M i) (sampleL f a w M i)) ∧
  max (sampleR f b w M n) (sampleL f a w M n) ≤ F * cut

/-- Within one call: from sample `n` on, either the loop ends properly, or it restarts at a
larger sample. -/
theorem peak_call (f : ℝ → ℝ) (a b w cut M F : ℝ) (hF : 0 < F) (hw : 0 < w) (hc : 0 ≤ cut) :
    ∀ (d n : Nat), 1 ≤ n → b - M ≤ ((n + d : Nat) : ℝ) * w → M - a ≤ ((n + d : Nat) : ℝ) * w → 2 ≤ n + d →
    (∀ i, 1 ≤ i → i < n → sampleR f b w M i ≤ F ∧ sampleL f a w M i ≤ F ∧
      F * cut < max (sampleR f b w M i) (sampleL f a w M i)) →
    (∃ fuel m, ∀ more, peakLoop f a b w cut (fuel + more) M F
        (F + ∑ i ∈ Finset.Ico 1 n, (sampleR f b w M i + sampleL f a w M i)) (n * w) (sampleR f b w M n) (sampleL f a w M n) =
        .ok (trapezoid f a b w M F m) ∧ Stopped f a b w cut M F m) ∨
    (∃ (fuel : Nat) (k : ℤ), f (M + k * w) > F ∧ ∀ more, peakLoop f a b w cut (fuel + more) M F
        (F + ∑ i ∈ Finset.Ico 1 n, (sampleR f b w M i + sampleL f a w M i)) (n * w) (sampleR f b w M n) (sampleL f a w M n) =
        peakLoop f a b w cut more (M + k * w) (f (M + k * w)) (f (M + k * w)) w
          (f (M + k * w + w)) (f (M + k * w - w))) := by
  intro d
  induction d with
  | zero =>
    intro n hn h1 h2 h3 hall
    left
    have hn2 : 2 ≤ n := by omega
    have hR : sampleR f b w M n = 0 := by
      unfold sampleR; rw [if_neg]; rw [not_or]; refine ⟨by omega, ?_⟩
      rw [Nat.add_zero] at h1; linarith
    have hL : sampleL f a w M n = 0 := by
      unfold sampleL; rw [if_neg]; rw [not_or]; refine ⟨by omega, ?_⟩
      rw [Nat.add_zero] at h2; linarith
    have hend : max (sampleR f b w M n) (sampleL f a w M n) ≤ F * cut := by
      rw [hR, hL, max_self]; positivity
    refine ⟨1, n, fun more => ⟨?_, hn, hall, hend⟩⟩
    rw [Nat.add_comm, peakLoop, if_neg (not_lt.2 hend), trapezoid]
  | succ d ih =>
    intro n hn h1 h2 h3 hall
    by_cases hgo : max (sampleR f b w M n) (sampleL f a w M n) > F * cut
    · by_cases hr : sampleR f b w M n > F
      · right
        have hv : sampleR f b w M n = f (M + n * w) := by
          by_contra hne
          have : sampleR f b w M n = 0 := by
            unfold sampleR at hne ⊢
            split at hne
            · exact absurd rfl hne
            · rename_i h; rw [if_neg h]
          linarith
        refine ⟨1, n, ?_, ?_⟩
        · rw [Int.cast_natCast, ← hv]; exact hr
        · intro more
          rw [Nat.add_comm, peakLoop, if_pos hgo, if_pos hr, hv, Int.cast_natCast]
      · by_cases hl : sampleL f a w M n > F
        · right
          have hv : sampleL f a w M n = f (M - n * w) := by
            by_contra hne
            have : sampleL f a w M n = 0 := by
              unfold sampleL at hne ⊢
              split at hne
              · exact absurd rfl hne
              · rename_i h; rw [if_neg h]
            linarith
          have hk : M + ((-(n : ℤ) : ℤ) : ℝ) * w = M - n * w := by push_cast; ring
          refine ⟨1, -(n : ℤ), ?_, ?_⟩
          · rw [hk, ← hv]; exact hl
          · intro more
            rw [Nat.add_comm, peakLoop, if_pos hgo, if_neg hr, if_pos hl, hv, hk]
        · have hnext := ih (n + 1) (by omega) (by rw [show n + 1 + d = n + (d + 1) from by omega]; exact h1)
            (by rw [show n + 1 + d = n + (d + 1) from by omega]; exact h2) (by omega) (by
              intro i hi1 hi2
              rcases Nat.lt_or_ge i n with h | h
              · exact hall i hi1 h
              · have : i = n := by omega
                subst this
                exact ⟨not_lt.1 hr, not_lt.1 hl, hgo⟩)
          have hsum : F + ∑ i ∈ Finset.Ico 1 (n + 1), (sampleR f b w M i + sampleL f a w M i) =
              F + ∑ i ∈ Finset.Ico 1 n, (sampleR f b w M i + sampleL f a w M i) + (sampleR f b w M n + sampleL f a w M n) := by
            rw [Finset.sum_Ico_succ_top hn]; ring
          have hstep : ∀ more, peakLoop f a b w cut (more + 1) M F
              (F + ∑ i ∈ Finset.Ico 1 n, (sampleR f b w M i + sampleL f a w M i)) (n * w) (sampleR f b w M n) (sampleL f a w M n) =
              peakLoop f a b w cut more M F
              (F + ∑ i ∈ Finset.Ico 1 (n + 1), (sampleR f b w M i + sampleL f a w M i)) ((n + 1 : Nat) * w)
              (sampleR f b w M (n + 1)) (sampleL f a w M (n + 1)) := by
            intro more
            rw [peakLoop, if_pos hgo, if_neg hr, if_neg hl, hsum]
            have hd : ((n + 1 : Nat) : ℝ) * w = n * w + w := by push_cast; ring
            have e1 : sampleR f b w M (n + 1) = if M + (n * w + w) < b then f (M + (n * w + w)) else 0 := by
              unfold sampleR
              rw [hd]
              have : ¬ n + 1 = 1 := by omega
              simp only [this, false_or]
            have e2 : sampleL f a w M (n + 1) = if M - (n * w + w) > a then f (M - (n * w + w)) else 0 := by
              unfold sampleL
              rw [hd]
              have : ¬ n + 1 = 1 := by omega
              simp only [this, false_or]
            rw [e1, e2, hd]
          rcases hnext with ⟨fuel, m, h⟩ | ⟨fuel, k, hk, h⟩
          · left
            refine ⟨fuel + 1, m, fun more => ?_⟩
            rw [show fuel + 1 + more = fuel + more + 1 from by omega, hstep]
            exact h more
          · right
            refine ⟨fuel + 1, k, hk, fun more => ?_⟩
            rw [show fuel + 1 + more = fuel + more + 1 from by omega, hstep]
            exact h more
    · left
      refine ⟨1, n, fun more => ⟨?_, hn, hall, not_lt.1 hgo⟩⟩
      rw [Nat.add_comm, peakLoop, if_neg hgo, trapezoid]

theorem sample_one (f : ℝ → ℝ) (a b w M : ℝ) :
    sampleR f b w M 1 = f (M + w) ∧ sampleL f a w M 1 = f (M - w) := by
  unfold sampleR sampleL
  simp

theorem exists_far (w : ℝ) (hw : 0 < w) (x y : ℝ) : ∃ d : Nat, x ≤ ((1 + d : Nat) : ℝ) * w ∧ y ≤ ((1 + d : Nat) : ℝ) * w ∧ 2 ≤ 1 + d := by
  obtain ⟨n, hn⟩ := exists_nat_gt (max (x / w) (y / w))
  refine ⟨n + 1, ?_, ?_, by omega⟩
  · have : x / w < n := lt_of_le_of_lt (le_max_left _ _) hn
    rw [div_lt_iff₀ hw] at this
    push_cast
    nlinarith
  · have : y / w < n := lt_of_le_of_lt (le_max_right _ _) hn
    rw [div_lt_iff₀ hw] at this
    push_cast
    nlinarith

/-- C42: with positive peak value, positive step and non-negative cutoff, evaluation ends
whenever the integrand exceeds the given peak value at only finitely many points of the sampling
grid (in particular when it does not exceed it outside some interval), and the result is the
trapezoidal sum around a grid point that was found to be largest, with the outermost pair
halved.
Missing: other integrands (`C42_refuted_endless`), and the first pair of samples, which is taken
even outside the bounds (`C42_refuted_bounds`). -/
theorem C42_trapezoid_partial (f : ℝ → ℝ) (a b w cut M F : ℝ) (hF : 0 < F) (hw : 0 < w) (hc : 0 ≤ cut)
    (R : Nat) (hR : ∀ k : ℤ, (R : ℤ) < |k| → f (M + k * w) ≤ F) :
    ∃ (fuel n : Nat) (k : ℤ) (F' : ℝ), (∀ more, evaluate f a b w cut (fuel + more) M F =
        .ok (trapezoid f a b w (M + k * w) F' n)) ∧ F ≤ F' ∧ (F' = f (M + k * w) ∨ (k = 0 ∧ F' = F)) ∧
      Stopped f a b w cut (M + k * w) F' n := by
  classical
  -- measure: grid points above the current peak
  let above : ℝ → Finset ℤ := fun G => (Finset.Icc (-(R : ℤ)) R).filter (fun k => G < f (M + k * w))
  have key : ∀ (c : Nat) (k : ℤ) (G : ℝ), F ≤ G → (G = f (M + k * w) ∨ (k = 0 ∧ G = F)) → (above G).card ≤ c →
      ∃ (fuel n : Nat) (k' : ℤ) (F' : ℝ), (∀ more, peakLoop f a b w cut (fuel + more) (M + k * w) G G w
          (f (M + k * w + w)) (f (M + k * w - w)) = .ok (trapezoid f a b w (M + k' * w) F' n)) ∧ F ≤ F' ∧
        (F' = f (M + k' * w) ∨ (k' = 0 ∧ F' = F)) ∧ Stopped f a b w cut (M + k' * w) F' n := by
    intro c
    induction c with
    | zero =>
      intro k G hG hpk hcard
      obtain ⟨d, d1, d2, d3⟩ := exists_far w hw (b - (M + k * w)) (M + k * w - a)
      rcases peak_call f a b w cut (M + k * w) G (by linarith) hw hc d 1 (Nat.le_refl _) d1 d2 d3 (by intro i h1 h2; omega) with
        ⟨fuel, m, h⟩ | ⟨fuel, j, hj, h⟩
      · refine ⟨fuel, m, k, G, fun more => ?_, hG, hpk, (h 0).2⟩
        have := (h more).1
        rw [(sample_one f a b w (M + k * w)).1, (sample_one f a b w (M + k * w)).2] at this
        simpa using this
      · exfalso
        have hmem : k + j ∈ above G := by
          have e : M + ((k + j : ℤ) : ℝ) * w = M + k * w + j * w := by push_cast; ring
          rw [Finset.mem_filter, e]
          refine ⟨?_, hj⟩
          rw [Finset.mem_Icc, ← abs_le]
          by_contra hcon
          have := hR (k + j) (not_le.1 hcon)
          rw [e] at this
          linarith
        have : 0 < (above G).card := Finset.card_pos.2 ⟨_, hmem⟩
        omega
    | succ c ih =>
      intro k G hG hpk hcard
      obtain ⟨d, d1, d2, d3⟩ := exists_far w hw (b - (M + k * w)) (M + k * w - a)
      rcases peak_call f a b w cut (M + k * w) G (by linarith) hw hc d 1 (Nat.le_refl _) d1 d2 d3 (by intro i h1 h2; omega) with
        ⟨fuel, m, h⟩ | ⟨fuel, j, hj, h⟩
      · refine ⟨fuel, m, k, G, fun more => ?_, hG, hpk, (h 0).2⟩
        have := (h more).1
        rw [(sample_one f a b w (M + k * w)).1, (sample_one f a b w (M + k * w)).2] at this
        simpa using this
      · have e : M + ((k + j : ℤ) : ℝ) * w = M + k * w + j * w := by push_cast; ring
        have hmem : k + j ∈ above G := by
          rw [Finset.mem_filter, e]
          refine ⟨?_, hj⟩
          rw [Finset.mem_Icc, ← abs_le]
          by_contra hcon
          have := hR (k + j) (not_le.1 hcon)
          rw [e] at this
          linarith
        have hlt : (above (f (M + ((k + j : ℤ) : ℝ) * w))).card < (above G).card := by
          apply Finset.card_lt_card
          refine ⟨?_, ?_⟩
          · intro x hx
            rw [Finset.mem_filter] at hx ⊢
            refine ⟨hx.1, ?_⟩
            rw [e] at hx
            linarith [hx.2]
          · intro hsub
            have := hsub hmem
            rw [Finset.mem_filter] at this
            exact lt_irrefl _ this.2
        obtain ⟨fuel2, n, k', F', r1, r2, r3, r4⟩ := ih (k + j) (f (M + ((k + j : ℤ) : ℝ) * w)) (by rw [e]; linarith)
          (.inl rfl) (by omega)
        refine ⟨fuel + fuel2, n, k', F', fun more => ?_, r2, r3, r4⟩
        have h1 := h (fuel2 + more)
        have h2 := r1 more
        rw [e] at h2
        rw [h2] at h1
        rw [Nat.add_assoc]
        rw [(sample_one f a b w (M + k * w)).1, (sample_one f a b w (M + k * w)).2] at h1
        simpa using h1
  obtain ⟨fuel, n, k, F', r1, r2, r3, r4⟩ := key (above F).card 0 F (le_refl _) (.inr ⟨rfl, rfl⟩) (Nat.le_refl _)
  refine ⟨fuel, n, k, F', fun more => ?_, r2, r3, r4⟩
  rw [evaluate, if_neg hw.ne']
  simpa using r1 more

/-- C42: when the given peak really is the maximum, the sum is taken around it. -/
theorem C42_true_maximum_partial (f : ℝ → ℝ) (a b w cut M : ℝ) (hM : ∀ x, f x ≤ f M) (hF : 0 < f M) (hw : 0 < w) (hc : 0 ≤ cut) :
    ∃ (fuel n : Nat) (M' : ℝ), (∀ more, evaluate f a b w cut (fuel + more) M (f M) = .ok (trapezoid f a b w M' (f M) n)) ∧
      f M' = f M ∧ Stopped f a b w cut M' (f M) n := by
  obtain ⟨fuel, n, k, F', h1, h2, h3, h4⟩ := C42_trapezoid_partial f a b w cut M (f M) hF hw hc 0 (fun k _ => hM _)
  have hF' : F' = f M := by
    rcases h3 with h | ⟨-, h⟩
    · exact le_antisymm (by rw [h]; exact hM _) h2
    · exact h
  subst hF'
  refine ⟨fuel, n, M + k * w, h1, ?_, h4⟩
  rcases h3 with h | ⟨h, -⟩
  · exact h.symm
  · rw [h]; simp

/-- C42 as stated is refuted: the search for a larger sample ignores the bounds, and for the
integrand `x` it runs away for ever. -/
theorem C42_refuted_endless (fuel : Nat) : evaluate (fun x => x) 0 2 1 0 fuel 1 1 = .fuel := by
  have key : ∀ (fuel : Nat) (M : ℝ), 1 ≤ M →
      peakLoop (fun x => x) 0 2 1 0 fuel M M M 1 (M + 1) (M - 1) = .fuel := by
    intro fuel
    induction fuel with
    | zero => intro M _; rfl
    | succ fuel ih =>
      intro M hM
      rw [peakLoop, if_pos (by rw [mul_zero]; exact lt_of_lt_of_le (by linarith) (le_max_left _ _)), if_pos (by linarith)]
      exact ih (M + 1) (by linarith)
  rw [evaluate, if_neg one_ne_zero]
  exact key fuel 1 (le_refl _)

/-- C42 as stated is refuted: the first pair of samples is used although it lies outside the
bounds (here both bounds are closer than one step). -/
theorem C42_refuted_bounds :
    evaluate (fun _ => 1) (-1) 1 10 (1 / 2) 2 0 1 = .ok 30 := by
  norm_num [evaluate, peakLoop]

/-- C42: a zero step is rejected. -/
theorem C42_zero_step (f : ℝ → ℝ) (a b cut M F : ℝ) (fuel : Nat) : evaluate f a b 0 cut fuel M F = .zeroFalloff := by
  rw [evaluate, if_pos rfl]

/-- A tent function around 1 with step 1/2: 1/2 * (1 + (1/2 + 1/2) + 1/2 * (0 + 0)) = 1. -/
example : evaluate (fun x => if x ≤ 1 then x else 2 - x) 0 2 (1 / 2) 0 2 1 1 = .ok 1 := by
  norm_num [evaluate, peakLoop]

/-! ### C43 -/

theorem invphi_spec : 0 < invphi ∧ invphi < 1 ∧ invphi * invphi = 1 - invphi := by
  have h5 : Real.sqrt 5 * Real.sqrt 5 = 5 := Real.mul_self_sqrt (by norm_num)
  have hp : 0 ≤ Real.sqrt 5 := Real.sqrt_nonneg 5
  unfold invphi
  refine ⟨?_, ?_, ?_⟩
  · nlinarith
  · nlinarith
  · nlinarith

/-- Increasing before `m`, decreasing after it, on [0, 2π]. -/
def RisesThenFalls (f : ℝ → ℝ) (m : ℝ) : Prop :=
  0 ≤ m ∧ m ≤ 2 * Real.pi ∧ (∀ x y, 0 ≤ x → x < y → y ≤ m → f x < f y) ∧
  (∀ x y, m ≤ x → x < y → y ≤ 2 * Real.pi → f y < f x)

/-- Invariant of the search. -/
structure GoldenInv (f : ℝ → ℝ) (g : Golden) : Prop where
  lo : 0 ≤ g.a
  hi : g.b ≤ 2 * Real.pi
  hh : g.h = g.b - g.a
  pos : 0 < g.h
  hc : g.c = g.a + invphi * invphi * g.h
  hd : g.d = g.a + invphi * g.h
  yc : g.yc = f g.c
  yd : g.yd = f g.d

theorem golden_inv (f : ℝ → ℝ) (n : Nat) : GoldenInv f (goldenLoop f n) ∧
    (goldenLoop f n).h = 2 * Real.pi * invphi ^ n := by
  obtain ⟨p0, p1, p2⟩ := invphi_spec
  induction n with
  | zero =>
    have := Real.pi_pos
    exact ⟨⟨le_refl _, le_refl _, rfl, by simp only [goldenLoop, goldenInit]; linarith, rfl, rfl, rfl, rfl⟩,
      by simp [goldenLoop, goldenInit]⟩
  | succ n ih =>
    obtain ⟨⟨h1, h2, h3, h4, h5, h6, h7, h8⟩, h9⟩ := ih
    rw [goldenLoop]
    generalize goldenLoop f n = g at h1 h2 h3 h4 h5 h6 h7 h8 h9
    obtain ⟨a, b, c, d, h, yc, yd⟩ := g
    simp only at h1 h2 h3 h4 h5 h6 h7 h8 h9
    have hpos : 0 < invphi * h := mul_pos p0 h4
    have e1 : invphi * (invphi * h) = h - invphi * h := by rw [← mul_assoc, p2]; ring
    have e2 : invphi * invphi * h = h - invphi * h := by rw [p2]; ring
    have e3 : invphi * invphi * (invphi * h) = invphi * h - (h - invphi * h) := by rw [p2]; nlinarith
    have e4 : invphi * h < h := by nlinarith
    unfold goldenStep
    split
    · refine ⟨⟨h1, ?_, ?_, hpos, rfl, ?_, rfl, h7⟩, ?_⟩
      · show d ≤ 2 * Real.pi
        rw [h6]; linarith
      · show invphi * h = d - a
        rw [h6]; ring
      · show c = a + invphi * (invphi * h)
        rw [h5, e1, e2]
      · show invphi * h = 2 * Real.pi * invphi ^ (n + 1)
        rw [h9, pow_succ]; ring
    · refine ⟨⟨?_, h2, ?_, hpos, ?_, rfl, h8, rfl⟩, ?_⟩
      · show 0 ≤ c
        rw [h5, e2]; linarith
      · show invphi * h = b - c
        rw [h5, e2]; linarith
      · show d = c + invphi * invphi * (invphi * h)
        rw [h6, h5, e3, e2]; ring
      · show invphi * h = 2 * Real.pi * invphi ^ (n + 1)
        rw [h9, pow_succ]; ring

/-- C43: each round multiplies the width of the bracket by the golden ratio. -/
theorem C43_shrinks (f : ℝ → ℝ) (n : Nat) :
    (goldenLoop f (n + 1)).b - (goldenLoop f (n + 1)).a = (Real.sqrt 5 - 1) / 2 * ((goldenLoop f n).b - (goldenLoop f n).a) := by
  rw [← (golden_inv f (n + 1)).1.hh, ← (golden_inv f n).1.hh, (golden_inv f (n + 1)).2, (golden_inv f n).2, pow_succ]
  rw [show invphi = (Real.sqrt 5 - 1) / 2 from by unfold invphi; ring]
  ring

/-- C43: the result lies in the final bracket and hence in [0, 2π], whatever the function. -/
theorem C43_in_range (f : ℝ → ℝ) (tol x : ℝ) (h : findMaximum f tol = some x) :
    0 ≤ x ∧ x ≤ 2 * Real.pi ∧ ∃ n, rounds tol = some n ∧ (goldenLoop f n).a ≤ x ∧ x ≤ (goldenLoop f n).b := by
  obtain ⟨p0, p1, p2⟩ := invphi_spec
  unfold findMaximum at h
  split at h
  · cases h
  · rename_i n hn
    rw [Option.some.injEq] at h
    obtain ⟨⟨h1, h2, h3, h4, h5, h6, -, -⟩, -⟩ := golden_inv f n
    generalize hg : goldenLoop f n = g at h h1 h2 h3 h4 h5 h6
    have e2 : invphi * invphi * g.h = g.h - invphi * g.h := by rw [p2]; ring
    have e4 : 0 < invphi * g.h := mul_pos p0 h4
    have e5 : invphi * g.h < g.h := by nlinarith
    have hin : g.a ≤ x ∧ x ≤ g.b := by
      rw [← h, goldenResult]
      split
      · rw [h6]; constructor <;> linarith
      · rw [h5, e2]; constructor <;> linarith
    exact ⟨by linarith, by linarith, n, hn, by rw [hg]; exact hin.1, by rw [hg]; exact hin.2⟩

/-- C43: for a function that rises and then falls the maximiser stays inside the bracket. -/
theorem C43_bracket (f : ℝ → ℝ) (m : ℝ) (hf : RisesThenFalls f m) (n : Nat) :
    (goldenLoop f n).a ≤ m ∧ m ≤ (goldenLoop f n).b := by
  obtain ⟨p0, p1, p2⟩ := invphi_spec
  obtain ⟨f1, f2, f3, f4⟩ := hf
  induction n with
  | zero => exact ⟨f1, f2⟩
  | succ n ih =>
    obtain ⟨⟨h1, h2, h3, h4, h5, h6, h7, h8⟩, -⟩ := golden_inv f n
    rw [goldenLoop]
    generalize goldenLoop f n = g at h1 h2 h3 h4 h5 h6 h7 h8 ih
    obtain ⟨a, b, c, d, h, yc, yd⟩ := g
    simp only at h1 h2 h3 h4 h5 h6 h7 h8 ih
    have hhalf : 1 / 2 < invphi := by nlinarith
    have e2 : invphi * invphi * h = h - invphi * h := by rw [p2]; ring
    have hcd : c < d := by rw [h5, h6, e2]; nlinarith
    have hac : a ≤ c := by rw [h5, e2]; nlinarith
    have hdb : d ≤ b := by rw [h6]; nlinarith
    unfold goldenStep
    split
    · rename_i hgt
      refine ⟨ih.1, ?_⟩
      show m ≤ d
      by_contra hcon
      have := f3 c d (by linarith) hcd (not_le.1 hcon).le
      simp only [h7, h8] at hgt
      linarith
    · rename_i hle
      refine ⟨?_, ih.2⟩
      show c ≤ m
      by_contra hcon
      have := f4 c d (not_le.1 hcon).le hcd (by linarith)
      simp only [h7, h8] at hle
      linarith

/-- C43: for a function that rises and then falls, the result is within the final bracket's
width of the maximiser. -/
theorem C43_close (f : ℝ → ℝ) (m : ℝ) (hf : RisesThenFalls f m) (tol x : ℝ) (h : findMaximum f tol = some x) :
    ∃ n, rounds tol = some n ∧ |x - m| ≤ 2 * Real.pi * ((Real.sqrt 5 - 1) / 2) ^ n := by
  obtain ⟨-, -, n, hn, h1, h2⟩ := C43_in_range f tol x h
  obtain ⟨b1, b2⟩ := C43_bracket f m hf n
  refine ⟨n, hn, ?_⟩
  have hw : (goldenLoop f n).b - (goldenLoop f n).a = 2 * Real.pi * ((Real.sqrt 5 - 1) / 2) ^ n := by
    rw [← (golden_inv f n).1.hh, (golden_inv f n).2, show invphi = (Real.sqrt 5 - 1) / 2 from by unfold invphi; ring]
  rw [← hw, abs_le]
  constructor <;> linarith

/-- C43: for tolerances up to 2π the final width lies between the tolerance and the tolerance
times the golden number. -/
theorem C43_tolerance (tol : ℝ) (n : Nat) (h0 : 0 < tol) (h1 : tol ≤ 2 * Real.pi) (h : rounds tol = some n) :
    tol ≤ 2 * Real.pi * ((Real.sqrt 5 - 1) / 2) ^ n ∧
    2 * Real.pi * ((Real.sqrt 5 - 1) / 2) ^ n < tol / ((Real.sqrt 5 - 1) / 2) := by
  obtain ⟨p0, p1, -⟩ := invphi_spec
  have hpi := Real.pi_pos
  rw [show (Real.sqrt 5 - 1) / 2 = invphi from by unfold invphi; ring]
  have hlog : Real.log invphi < 0 := Real.log_neg p0 p1
  have hq : 0 < tol / (2 * Real.pi) := by positivity
  have hq1 : tol / (2 * Real.pi) ≤ 1 := by rw [div_le_one (by positivity)]; exact h1
  unfold rounds at h
  rw [if_neg (not_le.2 h0)] at h
  simp only [sub_zero] at h
  split at h
  · cases h
  · rw [Option.some.injEq] at h
    have hx0 : 0 ≤ Real.log (tol / (2 * Real.pi)) / Real.log invphi :=
      div_nonneg_of_nonpos (Real.log_nonpos hq.le hq1) hlog.le
    have g1 := Nat.floor_le hx0
    have g2 := Nat.lt_floor_add_one (Real.log (tol / (2 * Real.pi)) / Real.log invphi)
    rw [h] at g1 g2
    rw [le_div_iff_of_neg hlog] at g1
    rw [div_lt_iff_of_neg hlog] at g2
    have e1 : (n : ℝ) * Real.log invphi = Real.log (invphi ^ n) := by rw [Real.log_pow]
    have e2 : ((n : ℝ) + 1) * Real.log invphi = Real.log (invphi ^ (n + 1)) := by rw [Real.log_pow]; push_cast; ring
    rw [e1, Real.log_le_log_iff hq (by positivity), div_le_iff₀ (by positivity)] at g1
    rw [e2, Real.log_lt_log_iff (by positivity) hq, lt_div_iff₀ (by positivity)] at g2
    refine ⟨by linarith, ?_⟩
    rw [lt_div_iff₀ p0]
    rw [pow_succ] at g2
    nlinarith

/-- Beside C43: the last comparison picks the wrong half.  When the value at `c` is the smaller
one, the maximiser lies in `[c, b]`, but the middle of `[a, d]` is returned; for an increasing
function and no rounds the result lies left of `c`. -/
theorem C43_wrong_half (f : ℝ → ℝ) (hf : ∀ x y, x < y → f x < f y) :
    goldenResult (goldenLoop f 0) < (goldenLoop f 0).c ∧ (goldenLoop f 0).c < 2 * Real.pi := by
  obtain ⟨p0, p1, p2⟩ := invphi_spec
  have hpi := Real.pi_pos
  have h5 : Real.sqrt 5 * Real.sqrt 5 = 5 := Real.mul_self_sqrt (by norm_num)
  have hhalf : 1 / 2 < invphi := by nlinarith
  have hsm : invphi < 2 / 3 := by
    by_contra hcon
    nlinarith [not_lt.1 hcon]
  have hcd : (goldenLoop f 0).c < (goldenLoop f 0).d := by
    simp only [goldenLoop, goldenInit, p2]
    nlinarith
  have hlt : (goldenLoop f 0).yc < (goldenLoop f 0).yd := hf _ _ hcd
  rw [goldenResult, if_pos hlt]
  simp only [goldenLoop, goldenInit, p2]
  constructor <;> nlinarith

/-- A function that rises and then falls: a parabola with its top at 1. -/
example : RisesThenFalls (fun x => - (x - 1) ^ 2) 1 := by
  have := Real.two_le_pi
  refine ⟨by norm_num, by linarith, ?_, ?_⟩
  · intro x y h0 hxy hy; simp only; nlinarith
  · intro x y h0 hxy hy; simp only; nlinarith

end

end Softlib
