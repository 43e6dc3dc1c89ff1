/-
C137: rounding in an integration.
-/
import Verif.Integrator.StageRoundModel
import Verif.Integrator.StepRoundProps
import Verif.Integrator.TableauModel
import Mathlib.Algebra.BigOperators.Group.Finset.Basic
import Mathlib.Algebra.Order.BigOperators.Group.Finset
import Mathlib.Data.Rat.Cast.Lemmas
import Mathlib.Algebra.Order.BigOperators.Ring.Finset
import Mathlib.Tactic.Linarith
import Mathlib.Tactic.Ring
import Mathlib.Tactic.NormNum
import Mathlib.Tactic.Positivity
import Mathlib.Tactic.GCongr

namespace Softlib
open Softlib.Integrator Softlib.General

/-! ### sums -/

/-- The exact sum. -/
def rowE (h y : ℚ) (l : List (ℚ × ℚ)) : ℚ := y + (l.map fun p => h * p.1 * p.2).sum

theorem unit_nonneg {u : ℚ} (R : Rnd u) : 0 ≤ u := by
  have := R.rel 1
  rw [abs_one, mul_one] at this
  exact le_trans (abs_nonneg _) this

theorem fl_near {u : ℚ} (R : Rnd u) {x y A : ℚ} (m : ℕ) (hA : |y| ≤ A) (h : |x - y| ≤ ((1 + u) ^ m - 1) * A) :
    |R.fl x - y| ≤ ((1 + u) ^ (m + 1) - 1) * A := by
  have hu := unit_nonneg R
  have h1 := R.rel x
  have hA0 : 0 ≤ A := le_trans (abs_nonneg _) hA
  have hx : |x| ≤ (1 + u) ^ m * A := by
    have : |x| ≤ |x - y| + |y| := by
      have := abs_add_le (x - y) y
      rwa [sub_add_cancel] at this
    calc |x| ≤ ((1 + u) ^ m - 1) * A + A := by linarith
      _ = _ := by ring
  calc |R.fl x - y| = |(R.fl x - x) + (x - y)| := by rw [sub_add_sub_cancel]
    _ ≤ |R.fl x - x| + |x - y| := abs_add_le _ _
    _ ≤ u * ((1 + u) ^ m * A) + ((1 + u) ^ m - 1) * A := add_le_add (le_trans h1 (mul_le_mul_of_nonneg_left hx hu)) h
    _ = _ := by ring

theorem fl_mul_near {u : ℚ} (R : Rnd u) {x y c : ℚ} (m : ℕ) (h : |x - y| ≤ ((1 + u) ^ m - 1) * |y|) :
    |R.fl (x * c) - y * c| ≤ ((1 + u) ^ (m + 1) - 1) * |y * c| := by
  refine fl_near R m (le_refl _) ?_
  rw [← sub_mul, abs_mul, abs_mul, ← mul_assoc]
  exact mul_le_mul_of_nonneg_right h (abs_nonneg _)

/-- One product of the sums: three roundings. -/
theorem product_near {u : ℚ} (R : Rnd u) (h a k : ℚ) : |R.fl (R.fl (h * R.fl a) * k) - h * a * k| ≤ ((1 + u) ^ 3 - 1) * |h * a * k| := by
  have h0 : |R.fl a - a| ≤ ((1 + u) ^ 1 - 1) * |a| := by
    have := R.rel a
    rwa [pow_one, add_sub_cancel_left]
  have h1 := fl_mul_near R (c := h) 1 h0
  rw [mul_comm (R.fl a), mul_comm a] at h1
  exact fl_mul_near R (c := k) 2 h1

theorem pow_mono {u : ℚ} (hu : 0 ≤ u) {m n : ℕ} (h : m ≤ n) : (1 + u) ^ m ≤ (1 + u) ^ n :=
  pow_le_pow_right₀ (by linarith) h

theorem one_le_pow' {u : ℚ} (hu : 0 ≤ u) (m : ℕ) : 1 ≤ (1 + u) ^ m := one_le_pow₀ (by linarith)

/-- **C137** Every sum of the method is computed with a relative error, of the sum of the absolute values, of one rounding for each term and three
more. -/
theorem C137_row {u : ℚ} (R : Rnd u) (h y : ℚ) (l : List (ℚ × ℚ)) :
    |rowR R h y l - rowE h y l| ≤ ((1 + u) ^ (l.length + 3) - 1) * (|y| + (l.map fun p => |h * p.1 * p.2|).sum) := by
  have hu := unit_nonneg R
  have key : ∀ (l : List (ℚ × ℚ)) (m : ℕ) (s' s A : ℚ), 3 ≤ m → |s| ≤ A → |s' - s| ≤ ((1 + u) ^ m - 1) * A →
      |rowR R h s' l - rowE h s l| ≤ ((1 + u) ^ (m + l.length) - 1) * (A + (l.map fun p => |h * p.1 * p.2|).sum) := by
    intro l
    induction l with
    | nil => intro m s' s A _ _ hs; simpa [rowR, rowE] using hs
    | cons p l ih =>
      intro m s' s A hm hA hs
      have hp := product_near R h p.1 p.2
      have hp' : |R.fl (R.fl (h * R.fl p.1) * p.2) - h * p.1 * p.2| ≤ ((1 + u) ^ m - 1) * |h * p.1 * p.2| :=
        le_trans hp (mul_le_mul_of_nonneg_right (by linarith [pow_mono hu hm]) (abs_nonneg _))
      have hA' : |s + h * p.1 * p.2| ≤ A + |h * p.1 * p.2| := le_trans (abs_add_le _ _) (by linarith)
      have hs' : |s' + R.fl (R.fl (h * R.fl p.1) * p.2) - (s + h * p.1 * p.2)| ≤ ((1 + u) ^ m - 1) * (A + |h * p.1 * p.2|) := by
        rw [add_sub_add_comm]
        exact le_trans (abs_add_le _ _) (by linarith)
      have := ih (m + 1) _ _ _ (by omega) hA' (fl_near R m hA' hs')
      rw [List.map_cons, List.sum_cons, List.length_cons]
      rw [show rowR R h s' (p :: l) = rowR R h (R.fl (s' + R.fl (R.fl (h * R.fl p.1) * p.2))) l from rfl]
      rw [show rowE h s (p :: l) = rowE h (s + h * p.1 * p.2) l by rw [rowE, rowE, List.map_cons, List.sum_cons]; ring]
      rw [show m + (l.length + 1) = m + 1 + l.length by ring, ← add_assoc]
      exact this
  have := key l 3 y y |y| (le_refl _) (le_refl _) (by
    rw [sub_self, abs_zero]
    exact mul_nonneg (by linarith [one_le_pow' hu 3]) (abs_nonneg _))
  rwa [Nat.add_comm 3] at this

/-! ### one step -/

/-- One term of a sum: coefficient, computed and exact slope, and how far they are apart. -/
structure Term where
  a : ℚ
  k' : ℚ
  k : ℚ
  e : ℚ

def absSum (l : List Term) : ℚ := (l.map fun t => |t.a|).sum
def errSumT (l : List Term) : ℚ := (l.map fun t => |t.a| * t.e).sum

theorem row_close {u : ℚ} (R : Rnd u) (h y' y δ Y M : ℚ) (l : List Term) (hl : l.length ≤ 5) (hy : |y' - y| ≤ δ) (hY : |y'| ≤ Y)
    (hk : ∀ t ∈ l, |t.k' - t.k| ≤ t.e) (hM : ∀ t ∈ l, |t.k'| ≤ M) :
    |rowR R h y' (l.map fun t => (t.a, t.k')) - rowE h y (l.map fun t => (t.a, t.k))| ≤
      δ + ((1 + u) ^ 8 - 1) * (Y + |h| * M * absSum l) + |h| * errSumT l := by
  have hu := unit_nonneg R
  have h1 := C137_row R h y' (l.map fun t => (t.a, t.k'))
  have h2 : ((l.map fun t => (t.a, t.k')).map fun p => |h * p.1 * p.2|).sum ≤ |h| * M * absSum l := by
    clear h1 hl hk
    induction l with
    | nil => simp [absSum]
    | cons t l ih =>
      have := ih fun t ht => hM t (List.mem_cons_of_mem _ ht)
      have ht := hM t List.mem_cons_self
      simp only [absSum, List.map_cons, List.sum_cons] at this ⊢
      have e : |h * t.a * t.k'| ≤ |h| * M * |t.a| := by
        rw [abs_mul, abs_mul]
        calc |h| * |t.a| * |t.k'| ≤ |h| * |t.a| * M := mul_le_mul_of_nonneg_left ht (by positivity)
          _ = _ := by ring
      linarith
  have h3 : |rowE h y' (l.map fun t => (t.a, t.k')) - rowE h y (l.map fun t => (t.a, t.k))| ≤ δ + |h| * errSumT l := by
    clear h1 h2 hl hM
    induction l with
    | nil => simpa [rowE, errSumT] using hy
    | cons t l ih =>
      have := ih fun t ht => hk t (List.mem_cons_of_mem _ ht)
      have ht := hk t List.mem_cons_self
      simp only [rowE, errSumT, List.map_cons, List.sum_cons] at this ⊢
      have e : |h * t.a * t.k' - h * t.a * t.k| ≤ |h| * (|t.a| * t.e) := by
        rw [← mul_sub, abs_mul, abs_mul, ← mul_assoc]
        exact mul_le_mul_of_nonneg_left ht (by positivity)
      generalize (List.map (fun p : ℚ × ℚ => h * p.1 * p.2) (List.map (fun t => (t.a, t.k')) l)).sum = A at this ⊢
      generalize (List.map (fun p : ℚ × ℚ => h * p.1 * p.2) (List.map (fun t => (t.a, t.k)) l)).sum = B at this ⊢
      rw [show y' + (h * t.a * t.k' + A) - (y + (h * t.a * t.k + B)) = (y' + A - (y + B)) + (h * t.a * t.k' - h * t.a * t.k) by ring]
      refine le_trans (abs_add_le _ _) ?_
      linarith
  have h4 : ((1 + u) ^ ((l.map fun t => (t.a, t.k')).length + 3) - 1) * (|y'| + ((l.map fun t => (t.a, t.k')).map fun p => |h * p.1 * p.2|).sum) ≤
      ((1 + u) ^ 8 - 1) * (Y + |h| * M * absSum l) := by
    apply mul_le_mul
    · rw [List.length_map]; linarith [pow_mono hu (show l.length + 3 ≤ 8 by omega)]
    · linarith
    · have : 0 ≤ ((l.map fun t => (t.a, t.k')).map fun p => |h * p.1 * p.2|).sum :=
        List.sum_nonneg fun x hx => by
          obtain ⟨p, -, rfl⟩ := List.mem_map.1 hx
          exact abs_nonneg _
      have := abs_nonneg y'
      linarith
    · linarith [one_le_pow' hu 8]
  have := abs_add_le (rowR R h y' (l.map fun t => (t.a, t.k')) - rowE h y' (l.map fun t => (t.a, t.k')))
    (rowE h y' (l.map fun t => (t.a, t.k')) - rowE h y (l.map fun t => (t.a, t.k)))
  rw [sub_add_sub_cancel] at this
  linarith

theorem stageTime_close {u : ℚ} (R : Rnd u) (T' T c h τ : ℚ) (hc : |c| ≤ 1) (hT : |T' - T| ≤ τ) :
    |stageTime R T' c h - (T + c * h)| ≤ τ + ((1 + u) ^ 3 - 1) * (|T'| + |h|) := by
  have hu := unit_nonneg R
  have h0 : |R.fl c - c| ≤ ((1 + u) ^ 1 - 1) * |c| := by
    have := R.rel c
    rwa [pow_one, add_sub_cancel_left]
  have h1 : |R.fl (R.fl c * h) - c * h| ≤ ((1 + u) ^ 2 - 1) * |c * h| := fl_mul_near R (c := h) 1 h0
  have hA : |T' + c * h| ≤ |T'| + |c * h| := abs_add_le _ _
  have h2 : |T' + R.fl (R.fl c * h) - (T' + c * h)| ≤ ((1 + u) ^ 2 - 1) * (|T'| + |c * h|) := by
    rw [add_sub_add_left_eq_sub]
    refine le_trans h1 (mul_le_mul_of_nonneg_left ?_ (by linarith [one_le_pow' hu 2]))
    linarith [abs_nonneg T']
  have h3 : |R.fl (T' + R.fl (R.fl c * h)) - (T' + c * h)| ≤ ((1 + u) ^ 3 - 1) * (|T'| + |c * h|) := fl_near R 2 hA h2
  have h4 : |c * h| ≤ |h| := by
    rw [abs_mul]
    calc |c| * |h| ≤ 1 * |h| := mul_le_mul_of_nonneg_right hc (abs_nonneg _)
      _ = |h| := one_mul _
  have h5 : ((1 + u) ^ 3 - 1) * (|T'| + |c * h|) ≤ ((1 + u) ^ 3 - 1) * (|T'| + |h|) :=
    mul_le_mul_of_nonneg_left (by linarith) (by linarith [one_le_pow' hu 3])
  have := abs_add_le (stageTime R T' c h - (T' + c * h)) (T' + c * h - (T + c * h))
  rw [sub_add_sub_cancel, add_sub_add_right_eq_sub] at this
  unfold stageTime at this ⊢
  linarith

theorem endTime_close {u : ℚ} (R : Rnd u) (T' T h τ : ℚ) (hT : |T' - T| ≤ τ) :
    |R.fl (T' + h) - (T + h)| ≤ τ + u * (|T'| + |h|) := by
  have hu := unit_nonneg R
  have h1 := R.rel (T' + h)
  have h2 : u * |T' + h| ≤ u * (|T'| + |h|) := mul_le_mul_of_nonneg_left (abs_add_le _ _) hu
  have := abs_add_le (R.fl (T' + h) - (T' + h)) (T' + h - (T + h))
  rw [sub_add_sub_cancel, add_sub_add_right_eq_sub] at this
  linarith

/-- The computed function `f'` is close to `f`, and `f` does not vary too much. -/
structure Smooth (N : ℕ) (f' f : ℚ → (ℕ → ℚ) → ℕ → ℚ) (L K ε : ℚ) : Prop where
  L0 : 0 ≤ L
  K0 : 0 ≤ K
  near : ∀ t y i, i < N → |f' t y i - f t y i| ≤ ε
  lip : ∀ t' t y' y τ δ, |t' - t| ≤ τ → (∀ i, i < N → |y' i - y i| ≤ δ) → ∀ i, i < N → |f t' y' i - f t y i| ≤ L * δ + K * τ

theorem Smooth.both {N : ℕ} {f' f : ℚ → (ℕ → ℚ) → ℕ → ℚ} {L K ε : ℚ} (S : Smooth N f' f L K ε) {t' t : ℚ} {y' y : ℕ → ℚ} {τ δ : ℚ}
    (ht : |t' - t| ≤ τ) (hy : ∀ i, i < N → |y' i - y i| ≤ δ) (i : ℕ) (hi : i < N) : |f' t' y' i - f t y i| ≤ L * δ + K * τ + ε := by
  have h1 := S.near t' y' i hi
  have h2 := S.lip t' t y' y τ δ ht hy i hi
  have := abs_add_le (f' t' y' i - f t' y' i) (f t' y' i - f t y i)
  rw [sub_add_sub_cancel] at this
  linarith

/-- All slopes of a step. -/
def Below (q : InnerR) (N : ℕ) (d : ℕ → ℚ) (M : ℚ) : Prop :=
  ∀ i, i < N → |d i| ≤ M ∧ |q.k2 i| ≤ M ∧ |q.k3 i| ≤ M ∧ |q.k4 i| ≤ M ∧ |q.k5 i| ≤ M ∧ |q.k6 i| ≤ M

/-- The rounding errors of the sums of one step. -/
def sumError (u Y h M : ℚ) : ℚ := ((1 + u) ^ 8 - 1) * (Y + 25 * |h| * M)
/-- The rounding errors of the times of the stages. -/
def timeError (u T h : ℚ) : ℚ := ((1 + u) ^ 3 - 1) * (|T| + |h|)

theorem exactRow (h y : ℚ) (l : List (ℚ × ℚ)) : rowR exactRnd h y l = rowE h y l := by
  have := C137_row exactRnd h y l
  rw [add_zero, one_pow, sub_self, zero_mul] at this
  exact sub_eq_zero.1 (abs_nonpos_iff.1 this)

theorem exactStage (T c h : ℚ) : stageTime exactRnd T c h = T + c * h := rfl
theorem exactEnd (T h : ℚ) : exactRnd.fl (T + h) = T + h := rfl

/-- A stage: the sums are close, so are the slopes. -/
theorem stage_close {u : ℚ} (R : Rnd u) {N : ℕ} {f' f : ℚ → (ℕ → ℚ) → ℕ → ℚ} {L K ε : ℚ} (S : Smooth N f' f L K ε)
    (h : ℚ) (y' y : ℕ → ℚ) (δ Y M τ σ κ : ℚ) (hq : L * |h| ≤ 1) (hM : 0 ≤ M) (hσ : σ = L * (δ + sumError u Y h M) + K * τ + ε) (hσ0 : 0 ≤ σ)
    (t' t : ℚ) (ht : |t' - t| ≤ τ) (l : ℕ → List Term)
    (hl : ∀ i, (l i).length ≤ 5) (hy : ∀ i, i < N → |y' i - y i| ≤ δ) (hY : ∀ i, i < N → |y' i| ≤ Y)
    (hk : ∀ i, i < N → ∀ t ∈ l i, |t.k' - t.k| ≤ t.e) (hM' : ∀ i, i < N → ∀ t ∈ l i, |t.k'| ≤ M)
    (hS : ∀ i, absSum (l i) ≤ 25) (hE : ∀ i, errSumT (l i) ≤ κ * σ) (hκ : 0 ≤ κ) :
    ∀ i, i < N → |f' t' (fun i => rowR R h (y' i) ((l i).map fun t => (t.a, t.k'))) i -
        f t (fun i => rowE h (y i) ((l i).map fun t => (t.a, t.k))) i| ≤ (1 + κ) * σ := by
  intro i hi
  have hu := unit_nonneg R
  have key : ∀ i, i < N → |rowR R h (y' i) ((l i).map fun t => (t.a, t.k')) - rowE h (y i) ((l i).map fun t => (t.a, t.k))| ≤
      δ + sumError u Y h M + |h| * (κ * σ) := fun i hi => by
    have h1 := row_close R h (y' i) (y i) δ Y M (l i) (hl i) (hy i hi) (hY i hi) (hk i hi) (hM' i hi)
    have h2 : ((1 + u) ^ 8 - 1) * (Y + |h| * M * absSum (l i)) ≤ sumError u Y h M := by
      unfold sumError
      apply mul_le_mul_of_nonneg_left _ (by linarith [one_le_pow' hu 8])
      have := mul_le_mul_of_nonneg_left (hS i) (mul_nonneg (abs_nonneg h) hM)
      linarith
    have h3 := mul_le_mul_of_nonneg_left (hE i) (abs_nonneg h)
    linarith
  have := S.both ht key i hi
  have h4 : L * (|h| * (κ * σ)) ≤ κ * σ := by
    have := mul_le_mul_of_nonneg_right hq (mul_nonneg hκ hσ0)
    rw [one_mul] at this
    linarith
  rw [hσ] at h4 this ⊢
  linarith

/-- **C137** One step.  If the computed values are `δ` from the exact ones and the time is `τ` from the exact one, then after the step they are
`δ`, and the rounding errors of the sums, and 25 times the length of the step times the error `σ` of a slope apart: rounding is not amplified further. -/
theorem C137_step {u : ℚ} (R : Rnd u) {N : ℕ} {f' f : ℚ → (ℕ → ℚ) → ℕ → ℚ} {L K ε : ℚ} (S : Smooth N f' f L K ε)
    (T' T h : ℚ) (y' y : ℕ → ℚ) (δ Y M τ : ℚ) (hq : L * |h| ≤ 1) (hτ : |T' - T| ≤ τ)
    (hy : ∀ i, i < N → |y' i - y i| ≤ δ) (hY : ∀ i, i < N → |y' i| ≤ Y)
    (hM : Below (dpInnerR R f' T' h y' (f' T' y')) N (f' T' y') M) (i : ℕ) (hi : i < N) :
    |(dpInnerR R f' T' h y' (f' T' y')).yout i - (dpInnerR exactRnd f T h y (f T y)).yout i| ≤
      δ + sumError u Y h M + 25 * |h| * (L * (δ + sumError u Y h M) + K * (τ + timeError u T' h) + ε) := by
  have hu := unit_nonneg R
  have hM0 : 0 ≤ M := le_trans (abs_nonneg _) (hM i hi).1
  have hY0 : 0 ≤ Y := le_trans (abs_nonneg _) (hY i hi)
  have hδ0 : 0 ≤ δ := le_trans (abs_nonneg _) (hy i hi)
  have hε0 : 0 ≤ ε := le_trans (abs_nonneg _) (S.near 0 y i hi)
  have hτ0 : 0 ≤ τ := le_trans (abs_nonneg _) hτ
  have hs0 : 0 ≤ sumError u Y h M := mul_nonneg (by linarith [one_le_pow' hu 8]) (by positivity)
  have ht0 : 0 ≤ timeError u T' h := mul_nonneg (by linarith [one_le_pow' hu 3]) (by positivity)
  obtain ⟨σ, hσ⟩ : ∃ σ, σ = L * (δ + sumError u Y h M) + K * (τ + timeError u T' h) + ε := ⟨_, rfl⟩
  have hσ0 : 0 ≤ σ := by
    rw [hσ]
    have := S.L0; have := S.K0
    positivity
  rw [← hσ]
  have hend : |R.fl (T' + h) - (T + h)| ≤ τ + timeError u T' h := by
    refine le_trans (endTime_close R T' T h τ hτ) ?_
    have : u ≤ (1 + u) ^ 3 - 1 := by
      have := pow_mono hu (show 1 ≤ 3 by omega)
      rw [pow_one] at this; linarith
    have := mul_le_mul_of_nonneg_right this (show 0 ≤ |T'| + |h| by positivity)
    unfold timeError
    linarith
  have hst : ∀ c, |c| ≤ 1 → |stageTime R T' c h - (T + c * h)| ≤ τ + timeError u T' h := fun c hc => stageTime_close R T' T c h τ hc hτ
  have h1 : ∀ i, i < N → |f' T' y' i - f T y i| ≤ 1 * σ := fun i hi => by
    have := S.both hτ hy i hi
    have h1 : 0 ≤ L * sumError u Y h M := mul_nonneg S.L0 hs0
    have h2 : 0 ≤ K * timeError u T' h := mul_nonneg S.K0 ht0
    rw [hσ]
    linarith
  have sc := fun κ => stage_close R S h y' y δ Y M (τ + timeError u T' h) σ κ hq hM0 hσ hσ0
  obtain ⟨q', hq'⟩ : ∃ q', q' = dpInnerR R f' T' h y' (f' T' y') := ⟨_, rfl⟩
  obtain ⟨q, hqe⟩ : ∃ q, q = dpInnerR exactRnd f T h y (f T y) := ⟨_, rfl⟩
  rw [← hq'] at hM ⊢
  rw [← hqe]
  have e2' : q'.k2 = f' (stageTime R T' (1 / 5) h) fun i => rowR R h (y' i) [(1 / 5, f' T' y' i)] := by rw [hq']; rfl
  have e2 : q.k2 = f (T + 1 / 5 * h) fun i => rowE h (y i) [(1 / 5, f T y i)] := by
    simp only [← exactRow]; rw [hqe]; rfl
  have h2 : ∀ i, i < N → |q'.k2 i - q.k2 i| ≤ (6 / 5) * σ := by
    have := sc (1 / 5) _ _ (hst (1 / 5) (by rw [abs_le]; norm_num)) (fun i => [⟨1 / 5, f' T' y' i, f T y i, 1 * σ⟩]) (fun i => by simp) hy hY
      (fun i hi t ht => by
        simp only [List.mem_cons, List.not_mem_nil, or_false] at ht
        rcases ht with rfl
        · exact h1 i hi)
      (fun i hi t ht => by
        simp only [List.mem_cons, List.not_mem_nil, or_false] at ht
        rcases ht with rfl
        · exact (hM i hi).1)
      (fun i => by simp only [absSum, List.map_cons, List.map_nil, List.sum_cons, List.sum_nil, abs_div, abs_neg, Nat.abs_ofNat, abs_one]; norm_num)
      (fun i => by simp only [errSumT, List.map_cons, List.map_nil, List.sum_cons, List.sum_nil, abs_div, abs_neg, Nat.abs_ofNat, abs_one]; linarith) (by norm_num)
    intro i hi
    rw [e2', e2]
    refine le_trans (this i hi) (le_of_eq ?_)
    ring
  have e3' : q'.k3 = f' (stageTime R T' (3 / 10) h) fun i => rowR R h (y' i) [(3 / 40, f' T' y' i), (9 / 40, q'.k2 i)] := by rw [hq']; rfl
  have e3 : q.k3 = f (T + 3 / 10 * h) fun i => rowE h (y i) [(3 / 40, f T y i), (9 / 40, q.k2 i)] := by
    simp only [← exactRow]; rw [hqe]; rfl
  have h3 : ∀ i, i < N → |q'.k3 i - q.k3 i| ≤ (269 / 200) * σ := by
    have := sc (69 / 200) _ _ (hst (3 / 10) (by rw [abs_le]; norm_num)) (fun i => [⟨3 / 40, f' T' y' i, f T y i, 1 * σ⟩, ⟨9 / 40, q'.k2 i, q.k2 i, 6 / 5 * σ⟩]) (fun i => by simp) hy hY
      (fun i hi t ht => by
        simp only [List.mem_cons, List.not_mem_nil, or_false] at ht
        rcases ht with rfl | rfl
        · exact h1 i hi
        · exact h2 i hi)
      (fun i hi t ht => by
        simp only [List.mem_cons, List.not_mem_nil, or_false] at ht
        rcases ht with rfl | rfl
        · exact (hM i hi).1
        · exact (hM i hi).2.1)
      (fun i => by simp only [absSum, List.map_cons, List.map_nil, List.sum_cons, List.sum_nil, abs_div, abs_neg, Nat.abs_ofNat, abs_one]; norm_num)
      (fun i => by simp only [errSumT, List.map_cons, List.map_nil, List.sum_cons, List.sum_nil, abs_div, abs_neg, Nat.abs_ofNat, abs_one]; linarith) (by norm_num)
    intro i hi
    rw [e3', e3]
    refine le_trans (this i hi) (le_of_eq ?_)
    ring
  have e4' : q'.k4 = f' (stageTime R T' (4 / 5) h) fun i => rowR R h (y' i) [(44 / 45, f' T' y' i), (-56 / 15, q'.k2 i), (32 / 9, q'.k3 i)] := by rw [hq']; rfl
  have e4 : q.k4 = f (T + 4 / 5 * h) fun i => rowE h (y i) [(44 / 45, f T y i), (-56 / 15, q.k2 i), (32 / 9, q.k3 i)] := by
    simp only [← exactRow]; rw [hqe]; rfl
  have h4 : ∀ i, i < N → |q'.k4 i - q.k4 i| ≤ (281 / 25) * σ := by
    have := sc (256 / 25) _ _ (hst (4 / 5) (by rw [abs_le]; norm_num)) (fun i => [⟨44 / 45, f' T' y' i, f T y i, 1 * σ⟩, ⟨-56 / 15, q'.k2 i, q.k2 i, 6 / 5 * σ⟩, ⟨32 / 9, q'.k3 i, q.k3 i, 269 / 200 * σ⟩]) (fun i => by simp) hy hY
      (fun i hi t ht => by
        simp only [List.mem_cons, List.not_mem_nil, or_false] at ht
        rcases ht with rfl | rfl | rfl
        · exact h1 i hi
        · exact h2 i hi
        · exact h3 i hi)
      (fun i hi t ht => by
        simp only [List.mem_cons, List.not_mem_nil, or_false] at ht
        rcases ht with rfl | rfl | rfl
        · exact (hM i hi).1
        · exact (hM i hi).2.1
        · exact (hM i hi).2.2.1)
      (fun i => by simp only [absSum, List.map_cons, List.map_nil, List.sum_cons, List.sum_nil, abs_div, abs_neg, Nat.abs_ofNat, abs_one]; norm_num)
      (fun i => by simp only [errSumT, List.map_cons, List.map_nil, List.sum_cons, List.sum_nil, abs_div, abs_neg, Nat.abs_ofNat, abs_one]; linarith) (by norm_num)
    intro i hi
    rw [e4', e4]
    refine le_trans (this i hi) (le_of_eq ?_)
    ring
  have e5' : q'.k5 = f' (stageTime R T' (8 / 9) h) fun i => rowR R h (y' i) [(19372 / 6561, f' T' y' i), (-25360 / 2187, q'.k2 i), (64448 / 6561, q'.k3 i), (-212 / 729, q'.k4 i)] := by rw [hq']; rfl
  have e5 : q.k5 = f (T + 8 / 9 * h) fun i => rowE h (y i) [(19372 / 6561, f T y i), (-25360 / 2187, q.k2 i), (64448 / 6561, q.k3 i), (-212 / 729, q.k4 i)] := by
    simp only [← exactRow]; rw [hqe]; rfl
  have h5 : ∀ i, i < N → |q'.k5 i - q.k5 i| ≤ (34349 / 1000) * σ := by
    have := sc (33349 / 1000) _ _ (hst (8 / 9) (by rw [abs_le]; norm_num)) (fun i => [⟨19372 / 6561, f' T' y' i, f T y i, 1 * σ⟩, ⟨-25360 / 2187, q'.k2 i, q.k2 i, 6 / 5 * σ⟩, ⟨64448 / 6561, q'.k3 i, q.k3 i, 269 / 200 * σ⟩, ⟨-212 / 729, q'.k4 i, q.k4 i, 281 / 25 * σ⟩]) (fun i => by simp) hy hY
      (fun i hi t ht => by
        simp only [List.mem_cons, List.not_mem_nil, or_false] at ht
        rcases ht with rfl | rfl | rfl | rfl
        · exact h1 i hi
        · exact h2 i hi
        · exact h3 i hi
        · exact h4 i hi)
      (fun i hi t ht => by
        simp only [List.mem_cons, List.not_mem_nil, or_false] at ht
        rcases ht with rfl | rfl | rfl | rfl
        · exact (hM i hi).1
        · exact (hM i hi).2.1
        · exact (hM i hi).2.2.1
        · exact (hM i hi).2.2.2.1)
      (fun i => by simp only [absSum, List.map_cons, List.map_nil, List.sum_cons, List.sum_nil, abs_div, abs_neg, Nat.abs_ofNat, abs_one]; norm_num)
      (fun i => by simp only [errSumT, List.map_cons, List.map_nil, List.sum_cons, List.sum_nil, abs_div, abs_neg, Nat.abs_ofNat, abs_one]; linarith) (by norm_num)
    intro i hi
    rw [e5', e5]
    refine le_trans (this i hi) (le_of_eq ?_)
    ring
  have e6' : q'.k6 = f' (R.fl (T' + h)) fun i => rowR R h (y' i) [(9017 / 3168, f' T' y' i), (-355 / 33, q'.k2 i), (46732 / 5247, q'.k3 i), (49 / 176, q'.k4 i), (-5103 / 18656, q'.k5 i)] := by rw [hq']; rfl
  have e6 : q.k6 = f (T + h) fun i => rowE h (y i) [(9017 / 3168, f T y i), (-355 / 33, q.k2 i), (46732 / 5247, q.k3 i), (49 / 176, q.k4 i), (-5103 / 18656, q.k5 i)] := by
    simp only [← exactRow]; rw [hqe]; rfl
  have h6 : ∀ i, i < N → |q'.k6 i - q.k6 i| ≤ (2063 / 50) * σ := by
    have := sc (2013 / 50) _ _ hend (fun i => [⟨9017 / 3168, f' T' y' i, f T y i, 1 * σ⟩, ⟨-355 / 33, q'.k2 i, q.k2 i, 6 / 5 * σ⟩, ⟨46732 / 5247, q'.k3 i, q.k3 i, 269 / 200 * σ⟩, ⟨49 / 176, q'.k4 i, q.k4 i, 281 / 25 * σ⟩, ⟨-5103 / 18656, q'.k5 i, q.k5 i, 34349 / 1000 * σ⟩]) (fun i => by simp) hy hY
      (fun i hi t ht => by
        simp only [List.mem_cons, List.not_mem_nil, or_false] at ht
        rcases ht with rfl | rfl | rfl | rfl | rfl
        · exact h1 i hi
        · exact h2 i hi
        · exact h3 i hi
        · exact h4 i hi
        · exact h5 i hi)
      (fun i hi t ht => by
        simp only [List.mem_cons, List.not_mem_nil, or_false] at ht
        rcases ht with rfl | rfl | rfl | rfl | rfl
        · exact (hM i hi).1
        · exact (hM i hi).2.1
        · exact (hM i hi).2.2.1
        · exact (hM i hi).2.2.2.1
        · exact (hM i hi).2.2.2.2.1)
      (fun i => by simp only [absSum, List.map_cons, List.map_nil, List.sum_cons, List.sum_nil, abs_div, abs_neg, Nat.abs_ofNat, abs_one]; norm_num)
      (fun i => by simp only [errSumT, List.map_cons, List.map_nil, List.sum_cons, List.sum_nil, abs_div, abs_neg, Nat.abs_ofNat, abs_one]; linarith) (by norm_num)
    intro i hi
    rw [e6', e6]
    refine le_trans (this i hi) (le_of_eq ?_)
    ring
  have ey' : q'.yout i = rowR R h (y' i) [(35 / 384, f' T' y' i), (500 / 1113, q'.k3 i), (125 / 192, q'.k4 i), (-2187 / 6784, q'.k5 i), (11 / 84, q'.k6 i)] := by rw [hq']; rfl
  have ey : q.yout i = rowE h (y i) [(35 / 384, f T y i), (500 / 1113, q.k3 i), (125 / 192, q.k4 i), (-2187 / 6784, q.k5 i), (11 / 84, q.k6 i)] := by
    rw [← exactRow, hqe]; rfl
  have := row_close R h (y' i) (y i) δ Y M [⟨35 / 384, f' T' y' i, f T y i, 1 * σ⟩, ⟨500 / 1113, q'.k3 i, q.k3 i, 269 / 200 * σ⟩, ⟨125 / 192, q'.k4 i, q.k4 i, 281 / 25 * σ⟩, ⟨-2187 / 6784, q'.k5 i, q.k5 i, 34349 / 1000 * σ⟩, ⟨11 / 84, q'.k6 i, q.k6 i, 2063 / 50 * σ⟩] (by simp) (hy i hi) (hY i hi)
      (fun t ht => by
        simp only [List.mem_cons, List.not_mem_nil, or_false] at ht
        rcases ht with rfl | rfl | rfl | rfl | rfl
        · exact h1 i hi
        · exact h3 i hi
        · exact h4 i hi
        · exact h5 i hi
        · exact h6 i hi)
      (fun t ht => by
        simp only [List.mem_cons, List.not_mem_nil, or_false] at ht
        rcases ht with rfl | rfl | rfl | rfl | rfl
        · exact (hM i hi).1
        · exact (hM i hi).2.2.1
        · exact (hM i hi).2.2.2.1
        · exact (hM i hi).2.2.2.2.1
        · exact (hM i hi).2.2.2.2.2)
  simp only [List.map_cons, List.map_nil] at this
  rw [ey', ey]
  refine le_trans this ?_
  have hS : ((1 + u) ^ 8 - 1) * (Y + |h| * M * absSum [⟨35 / 384, f' T' y' i, f T y i, 1 * σ⟩, ⟨500 / 1113, q'.k3 i, q.k3 i, 269 / 200 * σ⟩, ⟨125 / 192, q'.k4 i, q.k4 i, 281 / 25 * σ⟩, ⟨-2187 / 6784, q'.k5 i, q.k5 i, 34349 / 1000 * σ⟩, ⟨11 / 84, q'.k6 i, q.k6 i, 2063 / 50 * σ⟩]) ≤ sumError u Y h M := by
    unfold sumError
    apply mul_le_mul_of_nonneg_left _ (by linarith [one_le_pow' hu 8])
    have e : absSum [⟨35 / 384, f' T' y' i, f T y i, 1 * σ⟩, ⟨500 / 1113, q'.k3 i, q.k3 i, 269 / 200 * σ⟩, ⟨125 / 192, q'.k4 i, q.k4 i, 281 / 25 * σ⟩, ⟨-2187 / 6784, q'.k5 i, q.k5 i, 34349 / 1000 * σ⟩, ⟨11 / 84, q'.k6 i, q.k6 i, 2063 / 50 * σ⟩] ≤ 25 := by
      simp only [absSum, List.map_cons, List.map_nil, List.sum_cons, List.sum_nil, abs_div, abs_neg, Nat.abs_ofNat, abs_one]; norm_num
    have := mul_le_mul_of_nonneg_left e (mul_nonneg (abs_nonneg h) hM0)
    linarith
  have hE : errSumT [⟨35 / 384, f' T' y' i, f T y i, 1 * σ⟩, ⟨500 / 1113, q'.k3 i, q.k3 i, 269 / 200 * σ⟩, ⟨125 / 192, q'.k4 i, q.k4 i, 281 / 25 * σ⟩, ⟨-2187 / 6784, q'.k5 i, q.k5 i, 34349 / 1000 * σ⟩, ⟨11 / 84, q'.k6 i, q.k6 i, 2063 / 50 * σ⟩] ≤ 25 * σ := by
    simp only [errSumT, List.map_cons, List.map_nil, List.sum_cons, List.sum_nil, abs_div, abs_neg, Nat.abs_ofNat, abs_one]; linarith
  have := mul_le_mul_of_nonneg_left hE (abs_nonneg h)
  linarith

/-! ### whole integrations -/

/-- The exact method with steps `hs`: time and values after `k` steps. -/
def exactRun (f : ℚ → (ℕ → ℚ) → ℕ → ℚ) (hs : ℕ → ℚ) (y0 : ℕ → ℚ) : ℕ → ℚ × (ℕ → ℚ)
  | 0 => (0, y0)
  | k + 1 =>
    let p := exactRun f hs y0 k
    (p.1 + hs k, (dpInnerR exactRnd f p.1 (hs k) p.2 (f p.1 p.2)).yout)

/-- The history is that of the rounded method with steps `hs`. -/
structure Followed {u : ℚ} (R : Rnd u) (f' : ℚ → (ℕ → ℚ) → ℕ → ℚ) (y0 : ℕ → ℚ) (hs : ℕ → ℚ) (s : HistR) : Prop where
  pos : 0 < s.n
  t0 : s.time 0 = 0
  y0 : s.y 0 = y0
  slope : ∀ j, j < s.n → s.dy j = f' (s.time j) (s.y j)
  time : ∀ j, j + 1 < s.n → s.time (j + 1) = R.fl (s.time j + hs j)
  value : ∀ j, j + 1 < s.n → s.y (j + 1) = (dpInnerR R f' (s.time j) (hs j) (s.y j) (f' (s.time j) (s.y j))).yout

theorem followed_store {u : ℚ} {R : Rnd u} {f' : ℚ → (ℕ → ℚ) → ℕ → ℚ} {y0 hs : ℕ → ℚ} {s : HistR} (F : Followed R f' y0 hs s)
    (est : (ℕ → ℚ) → (ℕ → ℚ) → (ℕ → ℚ) → ErrR) (h : ℚ) :
    Followed R f' y0 (fun j => if j = s.n - 1 then h else hs j)
      (storeR R s h (dpTrialR R f' est (s.time (s.n - 1)) h (s.y (s.n - 1)) (s.dy (s.n - 1)))) := by
  have hp := F.pos
  refine ⟨by simp [storeR], ?_, ?_, ?_, ?_, ?_⟩
  · simp only [storeR]; rw [if_neg (by omega)]; exact F.t0
  · simp only [storeR]; rw [if_neg (by omega)]; exact F.y0
  · intro j hj
    simp only [storeR] at hj ⊢
    by_cases e : j = s.n
    · rw [if_pos e, if_pos e, if_pos e]
      rfl
    · rw [if_neg e, if_neg e, if_neg e]
      exact F.slope j (by omega)
  · intro j hj
    simp only [storeR] at hj ⊢
    rw [if_neg (by omega : ¬ j = s.n)]
    by_cases e : j + 1 = s.n
    · rw [if_pos e, if_pos (by omega), show j = s.n - 1 by omega]
    · rw [if_neg e, if_neg (by omega)]
      exact F.time j (by omega)
  · intro j hj
    simp only [storeR] at hj ⊢
    rw [if_neg (by omega : ¬ j = s.n), if_neg (by omega : ¬ j = s.n)]
    by_cases e : j + 1 = s.n
    · rw [if_pos e, if_pos (by omega), show j = s.n - 1 by omega]
      rw [← F.slope (s.n - 1) (by omega)]
      rfl
    · rw [if_neg e, if_neg (by omega)]
      exact F.value j (by omega)

theorem followed_run {u : ℚ} {R : Rnd u} (pw : ℚ → ℚ → ℚ) (p : ParR) (eps : ℚ) (f' : ℚ → (ℕ → ℚ) → ℕ → ℚ)
    (est : (ℕ → ℚ) → (ℕ → ℚ) → (ℕ → ℚ) → ErrR) (fuel : ℕ) (y0 : ℕ → ℚ) : ∀ (k : ℕ) (s : HistR) (c : CtlR) (s' : HistR) (c' : CtlR) (hs : ℕ → ℚ),
      Followed R f' y0 hs s → rkRunR R pw p eps (dpTrialR R f' est) fuel k s c = .ok s' c' → ∃ hs', Followed R f' y0 hs' s' ∧ s'.n = s.n + k := by
  intro k
  induction k with
  | zero =>
    intro s c s' c' hs F e
    simp only [rkRunR, StepResR.ok.injEq] at e
    obtain ⟨rfl, rfl⟩ := e
    exact ⟨hs, F, rfl⟩
  | succ k ih =>
    intro s c s' c' hs F e
    rw [rkRunR] at e
    unfold rkStepR at e
    simp only at e
    rcases hL : stepLoopR R pw p eps (s.time (s.n - 1)) (fun h => (dpTrialR R f' est (s.time (s.n - 1)) h (s.y (s.n - 1)) (s.dy (s.n - 1))).err)
        fuel c.optimal c with _ | _ | ⟨h, c1⟩
    · rw [hL] at e; cases e
    · rw [hL] at e; cases e
    · rw [hL] at e
      simp only at e
      obtain ⟨hs', F', hn⟩ := ih _ _ _ _ _ (followed_store F est h) e
      exact ⟨hs', F', by rw [hn]; simp only [storeR]; omega⟩

/-- How far the stored times may be from the exact ones. -/
def timeDrift (u : ℚ) (time hs : ℕ → ℚ) (k : ℕ) : ℚ := ∑ j ∈ Finset.range k, u * (|time j| + |hs j|)

/-- What one step adds. -/
def stepError (u K ε Y M : ℚ) (time hs : ℕ → ℚ) (j : ℕ) : ℚ :=
  sumError u Y (hs j) M + 25 * |hs j| * (K * (timeDrift u time hs j + timeError u (time j) (hs j)) + ε)

/-- How much errors may grow. -/
def growth (L : ℚ) (hs : ℕ → ℚ) (k : ℕ) : ℚ := ∏ j ∈ Finset.range k, (1 + 25 * (L * |hs j|))

theorem one_le_growth {L : ℚ} (hL : 0 ≤ L) (hs : ℕ → ℚ) : ∀ k, 1 ≤ growth L hs k
  | 0 => by simp [growth]
  | k + 1 => by
    have := one_le_growth hL hs k
    rw [growth, Finset.prod_range_succ]
    have h : (0 : ℚ) ≤ 25 * (L * |hs k|) := by positivity
    have := mul_le_mul this (show 1 ≤ 1 + 25 * (L * |hs k|) by linarith) zero_le_one (by linarith)
    rw [one_mul] at this
    exact this

theorem times_close {u : ℚ} (R : Rnd u) {f' f : ℚ → (ℕ → ℚ) → ℕ → ℚ} {y0 hs : ℕ → ℚ} {s : HistR} (F : Followed R f' y0 hs s) :
    ∀ k, k < s.n → |s.time k - (exactRun f hs y0 k).1| ≤ timeDrift u s.time hs k
  | 0, _ => by simp [exactRun, timeDrift, F.t0]
  | k + 1, hk => by
    have ih := times_close R (f := f) F k (by omega)
    rw [F.time k hk, timeDrift, Finset.sum_range_succ]
    exact endTime_close R _ _ _ _ ih

theorem gronwall_step {G A C D x L : ℚ} (hG : 1 ≤ G) (hC : 0 ≤ C) (hD : 0 ≤ D) (hx : 0 ≤ x) (hL : 0 ≤ L) :
    G * A + C + 25 * x * (L * (G * A + C) + D) ≤ G * (1 + 25 * (L * x)) * (A + (C + 25 * x * D)) := by
  have h1 : 0 ≤ C + 25 * x * D := by positivity
  have h2 : C + 25 * x * D ≤ G * (C + 25 * x * D) := by
    have := mul_le_mul_of_nonneg_right hG h1
    rwa [one_mul] at this
  have h3 : 0 ≤ 25 * (L * x) := by positivity
  have h4 := mul_le_mul_of_nonneg_left h2 (show 0 ≤ 1 + 25 * (L * x) by linarith)
  have h5 : 0 ≤ 25 * (L * x) * (25 * x * D) := by positivity
  linarith

/-- **C137** Whole integrations.  Each stored value differs from the one of the exact method with the same steps by at most the sum of what the steps
add, which is proportional to the unit of rounding (and to the error of the computed function), times the growth. -/
theorem C137_history {u : ℚ} (R : Rnd u) {N : ℕ} {f' f : ℚ → (ℕ → ℚ) → ℕ → ℚ} {L K ε : ℚ} (S : Smooth N f' f L K ε) {y0 hs : ℕ → ℚ} {s : HistR}
    (F : Followed R f' y0 hs s) (Y M : ℚ) (hq : ∀ j, j + 1 < s.n → L * |hs j| ≤ 1) (hY : ∀ j, j < s.n → ∀ i, i < N → |s.y j i| ≤ Y)
    (hM : ∀ j, j + 1 < s.n → Below (dpInnerR R f' (s.time j) (hs j) (s.y j) (s.dy j)) N (s.dy j) M) :
    ∀ k, k < s.n → ∀ i, i < N → |s.y k i - (exactRun f hs y0 k).2 i| ≤ growth L hs k * ∑ j ∈ Finset.range k, stepError u K ε Y M s.time hs j
  | 0, _, i, hi => by simp [exactRun, F.y0, growth]
  | k + 1, hk, i, hi => by
    have ih := C137_history R S F Y M hq hY hM k (by omega)
    have ht := times_close R (f := f) F k (by omega)
    have hM' := hM k hk
    rw [F.slope k (by omega)] at hM'
    have := C137_step R S (s.time k) (exactRun f hs y0 k).1 (hs k) (s.y k) (exactRun f hs y0 k).2 _ Y M _ (hq k hk) ht ih (hY k (by omega)) hM' i hi
    rw [F.value k hk]
    refine le_trans this ?_
    have hg := one_le_growth S.L0 hs k
    have hM0 : 0 ≤ M := le_trans (abs_nonneg _) (hM' i hi).1
    have hY0 : 0 ≤ Y := le_trans (abs_nonneg _) (hY k (by omega) i hi)
    have hu := unit_nonneg R
    have hε0 : 0 ≤ ε := le_trans (abs_nonneg _) (S.near 0 y0 i hi)
    have hs0 : 0 ≤ sumError u Y (hs k) M := mul_nonneg (by linarith [one_le_pow' hu 8]) (by positivity)
    have ht0 : 0 ≤ timeError u (s.time k) (hs k) := mul_nonneg (by linarith [one_le_pow' hu 3]) (by positivity)
    have hd0 : 0 ≤ timeDrift u s.time hs k := Finset.sum_nonneg fun j _ => by positivity
    rw [show growth L hs (k + 1) = growth L hs k * (1 + 25 * (L * |hs k|)) by rw [growth, Finset.prod_range_succ, growth], Finset.sum_range_succ]
    have hD : 0 ≤ K * (timeDrift u s.time hs k + timeError u (s.time k) (hs k)) + ε := add_nonneg (mul_nonneg S.K0 (add_nonneg hd0 ht0)) hε0
    rw [add_assoc (L * _)]
    exact gronwall_step hg hs0 hD (abs_nonneg _) S.L0

/-- **C137** An integration with the rounded step-size control and the rounded method, whatever `pow`, the parameters and the error estimate. -/
theorem C137_run {u : ℚ} (R : Rnd u) (pw : ℚ → ℚ → ℚ) (p : ParR) (eps : ℚ) {N : ℕ} {f' f : ℚ → (ℕ → ℚ) → ℕ → ℚ} {L K ε : ℚ} (S : Smooth N f' f L K ε)
    (est : (ℕ → ℚ) → (ℕ → ℚ) → (ℕ → ℚ) → ErrR) (fuel k : ℕ) (y0 : ℕ → ℚ) (c0 : CtlR) (s : HistR) (c : CtlR)
    (h : rkRunR R pw p eps (dpTrialR R f' est) fuel k (HistR.init y0 (f' 0 y0)) c0 = .ok s c) :
    ∃ hs : ℕ → ℚ, s.n = k + 1 ∧ (∀ j, j < k → s.time (j + 1) = R.fl (s.time j + hs j)) ∧
      ∀ Y M, (∀ j, j < k → L * |hs j| ≤ 1) → (∀ j, j ≤ k → ∀ i, i < N → |s.y j i| ≤ Y) →
        (∀ j, j < k → Below (dpInnerR R f' (s.time j) (hs j) (s.y j) (s.dy j)) N (s.dy j) M) →
        ∀ m, m ≤ k → ∀ i, i < N → |s.y m i - (exactRun f hs y0 m).2 i| ≤ growth L hs m * ∑ j ∈ Finset.range m, stepError u K ε Y M s.time hs j := by
  have F0 : Followed R f' y0 (fun _ => 0) (HistR.init y0 (f' 0 y0)) := by
    refine ⟨Nat.one_pos, rfl, rfl, fun j _ => rfl, fun j hj => ?_, fun j hj => ?_⟩
    · simp only [HistR.init] at hj; omega
    · simp only [HistR.init] at hj; omega
  obtain ⟨hs, F, hn⟩ := followed_run pw p eps f' est fuel y0 k _ _ _ _ _ F0 h
  have hn' : s.n = k + 1 := by rw [hn]; simp only [HistR.init]; omega
  refine ⟨hs, hn', fun j hj => F.time j (by omega), fun Y M hq hY hM m hm i hi => ?_⟩
  exact C137_history R S F Y M (fun j hj => hq j (by omega)) (fun j hj => hY j (by omega)) (fun j hj => hM j (by omega)) m (by omega) i hi

theorem pow_eight {u : ℚ} (hu : 0 ≤ u) (h : u ≤ 1 / 100) : (1 + u) ^ 8 - 1 ≤ 9 * u := by
  have h2 : (1 + u) ^ 2 ≤ 1 + 201 / 100 * u := by
    have := mul_le_mul_of_nonneg_left h hu
    nlinarith
  have h4 : (1 + u) ^ 4 ≤ 1 + 407 / 100 * u := by
    calc (1 + u) ^ 4 = ((1 + u) ^ 2) ^ 2 := by ring
      _ ≤ (1 + 201 / 100 * u) ^ 2 := pow_le_pow_left₀ (by positivity) h2 2
      _ ≤ _ := by
        have := mul_le_mul_of_nonneg_left h hu
        nlinarith
  calc (1 + u) ^ 8 - 1 = ((1 + u) ^ 4) ^ 2 - 1 := by ring
    _ ≤ (1 + 407 / 100 * u) ^ 2 - 1 := by
      have := pow_le_pow_left₀ (by positivity) h4 2
      linarith
    _ ≤ _ := by
      have := mul_le_mul_of_nonneg_left h hu
      nlinarith

/-- **C137** What a step adds is proportional to the unit of rounding `u`, if the function is computed with an error of `b` units. -/
theorem C137_proportional {u K Y M Θ H b : ℚ} (hu : 0 ≤ u) (hu' : u ≤ 1 / 100) (hK : 0 ≤ K) (hY : 0 ≤ Y) (hM : 0 ≤ M) (time hs : ℕ → ℚ) (j : ℕ)
    (ht : ∀ i, i ≤ j → |time i| ≤ Θ) (hh : ∀ i, i ≤ j → |hs i| ≤ H) (hb : 0 ≤ b) :
    stepError u K (b * u) Y M time hs j ≤ u * (9 * (Y + 25 * H * M) + 25 * H * (K * ((j + 4) * (Θ + H)) + b)) := by
  have h8 := pow_eight hu hu'
  have h3 : (1 + u) ^ 3 - 1 ≤ 4 * u := by
    have := mul_le_mul_of_nonneg_left hu' hu
    have : u * u * u ≤ 1 / 100 * u := by
      have h1 := mul_le_mul_of_nonneg_right this hu
      nlinarith
    nlinarith
  have hΘ : 0 ≤ Θ := le_trans (abs_nonneg _) (ht j (le_refl _))
  have hH : 0 ≤ H := le_trans (abs_nonneg _) (hh j (le_refl _))
  have hd : timeDrift u time hs j ≤ j * (u * (Θ + H)) := by
    unfold timeDrift
    calc _ ≤ ∑ _i ∈ Finset.range j, u * (Θ + H) := Finset.sum_le_sum fun i hi => by
          have hi' : i ≤ j := le_of_lt (Finset.mem_range.1 hi)
          exact mul_le_mul_of_nonneg_left (add_le_add (ht i hi') (hh i hi')) hu
      _ = _ := by rw [Finset.sum_const, Finset.card_range, nsmul_eq_mul]
  have hte : timeError u (time j) (hs j) ≤ 4 * u * (Θ + H) := by
    unfold timeError
    exact mul_le_mul h3 (add_le_add (ht j (le_refl _)) (hh j (le_refl _))) (by positivity) (by positivity)
  have hse : sumError u Y (hs j) M ≤ 9 * u * (Y + 25 * H * M) := by
    unfold sumError
    refine mul_le_mul h8 ?_ (by positivity) (by positivity)
    have := mul_le_mul_of_nonneg_right (hh j (le_refl _)) hM
    linarith
  have hB : K * (timeDrift u time hs j + timeError u (time j) (hs j)) + b * u ≤ u * (K * ((j + 4) * (Θ + H)) + b) := by
    have := mul_le_mul_of_nonneg_left (add_le_add hd hte) hK
    linarith
  have hB0 : 0 ≤ u * (K * ((j + 4) * (Θ + H)) + b) := by positivity
  unfold stepError
  have h1 : 25 * |hs j| * (K * (timeDrift u time hs j + timeError u (time j) (hs j)) + b * u) ≤ 25 * H * (u * (K * ((j + 4) * (Θ + H)) + b)) := by
    calc _ ≤ 25 * |hs j| * (u * (K * ((j + 4) * (Θ + H)) + b)) := mul_le_mul_of_nonneg_left hB (by positivity)
      _ ≤ _ := mul_le_mul_of_nonneg_right (by linarith [hh j (le_refl _)]) hB0
  linarith

/-! ### the exact method -/

/-- Rational vectors as real ones. -/
def real (y : ℕ → ℚ) : ℕ → ℝ := fun i => (y i : ℝ)

/-- **C137** Without rounding this is the step of C35, with the fractions of RKDP45.h. -/
theorem C137_exact (f : ℚ → (ℕ → ℚ) → ℕ → ℚ) (g : ℝ → (ℕ → ℝ) → ℕ → ℝ) (hg : ∀ (t : ℚ) (y : ℕ → ℚ), g (t : ℝ) (real y) = real (f t y)) (T h : ℚ) (y d : ℕ → ℚ) :
    innerStep g (T : ℝ) h (real y) (real d) =
      ⟨real (dpInnerR exactRnd f T h y d).k2, real (dpInnerR exactRnd f T h y d).k3, real (dpInnerR exactRnd f T h y d).k4, real (dpInnerR exactRnd f T h y d).k5,
        real (dpInnerR exactRnd f T h y d).k6, real (dpInnerR exactRnd f T h y d).yout, real (dpInnerR exactRnd f T h y d).dydxout,
        real (dpInnerR exactRnd f T h y d).yerr⟩ := by
  have stage : ∀ (t : ℝ) (t' : ℚ) (v : ℕ → ℝ) (v' : ℕ → ℚ), t = t' → v = real v' → g t v = real (f t' v') := by
    rintro t t' v v' rfl rfl
    exact hg t' v'
  obtain ⟨q, hq⟩ : ∃ q, q = dpInnerR exactRnd f T h y d := ⟨_, rfl⟩
  rw [← hq]
  have q2 : q.k2 = f (T + 1 / 5 * h) fun i => rowE h (y i) [(1 / 5, d i)] := by
    simp only [← exactRow]; rw [hq]; rfl
  have q3 : q.k3 = f (T + 3 / 10 * h) fun i => rowE h (y i) [(3 / 40, d i), (9 / 40, q.k2 i)] := by
    simp only [← exactRow]; rw [hq]; rfl
  have q4 : q.k4 = f (T + 4 / 5 * h) fun i => rowE h (y i) [(44 / 45, d i), (-56 / 15, q.k2 i), (32 / 9, q.k3 i)] := by
    simp only [← exactRow]; rw [hq]; rfl
  have q5 : q.k5 = f (T + 8 / 9 * h) fun i =>
      rowE h (y i) [(19372 / 6561, d i), (-25360 / 2187, q.k2 i), (64448 / 6561, q.k3 i), (-212 / 729, q.k4 i)] := by
    simp only [← exactRow]; rw [hq]; rfl
  have q6 : q.k6 = f (T + h) fun i =>
      rowE h (y i) [(9017 / 3168, d i), (-355 / 33, q.k2 i), (46732 / 5247, q.k3 i), (49 / 176, q.k4 i), (-5103 / 18656, q.k5 i)] := by
    simp only [← exactRow]; rw [hq]; rfl
  have ey : q.yout = fun i => rowE h (y i) [(35 / 384, d i), (500 / 1113, q.k3 i), (125 / 192, q.k4 i), (-2187 / 6784, q.k5 i), (11 / 84, q.k6 i)] := by
    simp only [← exactRow]; rw [hq]; rfl
  have ed : q.dydxout = f (T + h) q.yout := by rw [hq]; rfl
  have ee : q.yerr = fun i => rowE h (h * (71 / 57600) * d i)
      [(-71 / 16695, q.k3 i), (71 / 1920, q.k4 i), (-17253 / 339200, q.k5 i), (22 / 525, q.k6 i), (-1 / 40, q.dydxout i)] := by
    simp only [← exactRow]; rw [hq]; rfl
  have r2 : g ((T : ℝ) + c2 * h) (real y + ((h : ℝ) * a21) • real d) = real q.k2 := by
    rw [q2]
    apply stage
    · simp only [c2]; push_cast; ring
    · funext i
      simp only [real, Pi.add_apply, Pi.smul_apply, smul_eq_mul, rowE, List.map_cons, List.map_nil, List.sum_cons, List.sum_nil, a21]
      push_cast; ring
  have r3 : g ((T : ℝ) + c3 * h) (real y + ((h : ℝ) * a31) • real d + ((h : ℝ) * a32) • real q.k2) = real q.k3 := by
    rw [q3]
    apply stage
    · simp only [c3]; push_cast; ring
    · funext i
      simp only [real, Pi.add_apply, Pi.smul_apply, smul_eq_mul, rowE, List.map_cons, List.map_nil, List.sum_cons, List.sum_nil, a31, a32]
      push_cast; ring
  have r4 : g ((T : ℝ) + c4 * h) (real y + ((h : ℝ) * a41) • real d + ((h : ℝ) * a42) • real q.k2 + ((h : ℝ) * a43) • real q.k3) = real q.k4 := by
    rw [q4]
    apply stage
    · simp only [c4]; push_cast; ring
    · funext i
      simp only [real, Pi.add_apply, Pi.smul_apply, smul_eq_mul, rowE, List.map_cons, List.map_nil, List.sum_cons, List.sum_nil, a41, a42, a43]
      push_cast; ring
  have r5 : g ((T : ℝ) + c5 * h) (real y + ((h : ℝ) * a51) • real d + ((h : ℝ) * a52) • real q.k2 + ((h : ℝ) * a53) • real q.k3 + ((h : ℝ) * a54) • real q.k4) =
      real q.k5 := by
    rw [q5]
    apply stage
    · simp only [c5]; push_cast; ring
    · funext i
      simp only [real, Pi.add_apply, Pi.smul_apply, smul_eq_mul, rowE, List.map_cons, List.map_nil, List.sum_cons, List.sum_nil, a51, a52, a53, a54]
      push_cast; ring
  have r6 : g ((T : ℝ) + h) (real y + ((h : ℝ) * a61) • real d + ((h : ℝ) * a62) • real q.k2 + ((h : ℝ) * a63) • real q.k3 + ((h : ℝ) * a64) • real q.k4 +
      ((h : ℝ) * a65) • real q.k5) = real q.k6 := by
    rw [q6]
    apply stage
    · push_cast; ring
    · funext i
      simp only [real, Pi.add_apply, Pi.smul_apply, smul_eq_mul, rowE, List.map_cons, List.map_nil, List.sum_cons, List.sum_nil, a61, a62, a63, a64, a65]
      push_cast; ring
  have ry : real y + ((h : ℝ) * a71) • real d + ((h : ℝ) * a73) • real q.k3 + ((h : ℝ) * a74) • real q.k4 + ((h : ℝ) * a75) • real q.k5 +
      ((h : ℝ) * a76) • real q.k6 = real q.yout := by
    rw [ey]
    funext i
    simp only [real, Pi.add_apply, Pi.smul_apply, smul_eq_mul, rowE, List.map_cons, List.map_nil, List.sum_cons, List.sum_nil, a71, a73, a74, a75, a76]
    push_cast; ring
  have rd : g ((T : ℝ) + h) (real q.yout) = real q.dydxout := by
    rw [ed]
    exact stage _ _ _ _ (by push_cast; ring) rfl
  have re : ((h : ℝ) * e1) • real d + ((h : ℝ) * e3) • real q.k3 + ((h : ℝ) * e4) • real q.k4 + ((h : ℝ) * e5) • real q.k5 + ((h : ℝ) * e6) • real q.k6 +
      ((h : ℝ) * e7) • real q.dydxout = real q.yerr := by
    rw [ee]
    funext i
    simp only [real, Pi.add_apply, Pi.smul_apply, smul_eq_mul, rowE, List.map_cons, List.map_nil, List.sum_cons, List.sum_nil, Softlib.Integrator.e1,
      Softlib.Integrator.e3, Softlib.Integrator.e4, Softlib.Integrator.e5, Softlib.Integrator.e6, Softlib.Integrator.e7]
    push_cast; ring
  simp only [innerStep, r2, r3, r4, r5, r6, ry, rd, re]

/-! ### the fifth coefficient of dense output -/

/-- One product with a rounded coefficient: two roundings. -/
theorem weight_near {u : ℚ} (R : Rnd u) (a k : ℚ) : |R.fl (R.fl a * k) - a * k| ≤ ((1 + u) ^ 2 - 1) * |a * k| := by
  have h0 : |R.fl a - a| ≤ ((1 + u) ^ 1 - 1) * |a| := by
    have := R.rel a
    rwa [pow_one, add_sub_cancel_left]
  exact fl_mul_near R (c := k) 1 h0

/-- A weighted sum. -/
theorem weights_near {u : ℚ} (R : Rnd u) : ∀ (l : List (ℚ × ℚ)) (m : ℕ) (s' s A : ℚ), 2 ≤ m → |s| ≤ A → |s' - s| ≤ ((1 + u) ^ m - 1) * A →
    |l.foldl (fun s p => R.fl (s + R.fl (R.fl p.1 * p.2))) s' - (s + (l.map fun p => p.1 * p.2).sum)| ≤
      ((1 + u) ^ (m + l.length) - 1) * (A + (l.map fun p => |p.1 * p.2|).sum)
  | [], m, s', s, A, _, _, hs => by simpa using hs
  | p :: l, m, s', s, A, hm, hA, hs => by
    have hu := unit_nonneg R
    have hp' : |R.fl (R.fl p.1 * p.2) - p.1 * p.2| ≤ ((1 + u) ^ m - 1) * |p.1 * p.2| :=
      le_trans (weight_near R p.1 p.2) (mul_le_mul_of_nonneg_right (by linarith [pow_mono hu hm]) (abs_nonneg _))
    have hA' : |s + p.1 * p.2| ≤ A + |p.1 * p.2| := le_trans (abs_add_le _ _) (by linarith)
    have hs' : |s' + R.fl (R.fl p.1 * p.2) - (s + p.1 * p.2)| ≤ ((1 + u) ^ m - 1) * (A + |p.1 * p.2|) := by
      rw [add_sub_add_comm]
      exact le_trans (abs_add_le _ _) (by linarith)
    have := weights_near R l (m + 1) _ _ _ (by omega) hA' (fl_near R m hA' hs')
    rw [List.map_cons, List.sum_cons, List.map_cons, List.sum_cons, List.length_cons, List.foldl_cons,
      show m + (l.length + 1) = m + 1 + l.length by ring, ← add_assoc, ← add_assoc]
    exact this

/-- **C137** The fifth coefficient of dense output is computed with a relative error, of the sum of the absolute values, of eight roundings; exact are
the coefficients of the method. -/
theorem C137_fifth {u : ℚ} (R : Rnd u) (h d k3 k4 k5 k6 d2 : ℚ) :
    |(fifthR R h d k3 k4 k5 k6 d2 : ℝ) - h * (d1 * d + d3 * k3 + d4 * k4 + d5 * k5 + d6 * k6 + d7 * d2)| ≤
      ((1 + u) ^ 8 - 1) * (|(h : ℝ)| * (|d1 * d| + |d3 * k3| + |d4 * k4| + |d5 * k5| + |d6 * k6| + |d7 * d2|)) := by
  have k := weights_near R [(87487479700 / 32700410799, k3), (-10690763975 / 1880347072, k4), (701980252875 / 199316789632, k5),
    (-1453857185 / 822651844, k6), (69997945 / 29380423, d2)] 2 _ _ _ (le_refl _) (le_refl _) (weight_near R (-12715105075 / 11282082432) d)
  simp only [List.map_cons, List.map_nil, List.sum_cons, List.sum_nil, List.length_cons, List.length_nil, add_zero, zero_add, Nat.reduceAdd] at k
  have hf : fifthR R h d k3 k4 k5 k6 d2 = R.fl (h * ([(87487479700 / 32700410799, k3), (-10690763975 / 1880347072, k4), (701980252875 / 199316789632, k5),
    (-1453857185 / 822651844, k6), (69997945 / 29380423, d2)] : List (ℚ × ℚ)).foldl (fun s p => R.fl (s + R.fl (R.fl p.1 * p.2)))
      (R.fl (R.fl (-12715105075 / 11282082432) * d))) := rfl
  generalize ([(87487479700 / 32700410799, k3), (-10690763975 / 1880347072, k4), (701980252875 / 199316789632, k5),
    (-1453857185 / 822651844, k6), (69997945 / 29380423, d2)] : List (ℚ × ℚ)).foldl (fun s p => R.fl (s + R.fl (R.fl p.1 * p.2)))
      (R.fl (R.fl (-12715105075 / 11282082432) * d)) = s' at k hf
  have habs : |(-12715105075 / 11282082432 * d + (87487479700 / 32700410799 * k3 + (-10690763975 / 1880347072 * k4 + (701980252875 / 199316789632 * k5 +
      (-1453857185 / 822651844 * k6 + 69997945 / 29380423 * d2)))) : ℚ)| ≤ |-12715105075 / 11282082432 * d| + (|87487479700 / 32700410799 * k3| +
      (|-10690763975 / 1880347072 * k4| + (|701980252875 / 199316789632 * k5| + (|-1453857185 / 822651844 * k6| + |69997945 / 29380423 * d2|)))) := by
    refine le_trans (abs_add_le _ _) (add_le_add_right (le_trans (abs_add_le _ _) (add_le_add_right (le_trans (abs_add_le _ _)
      (add_le_add_right (le_trans (abs_add_le _ _) (add_le_add_right (abs_add_le _ _) _)) _)) _)) _)
  have := fl_near R 7 (x := h * s') (y := h * (-12715105075 / 11282082432 * d + (87487479700 / 32700410799 * k3 + (-10690763975 / 1880347072 * k4 +
    (701980252875 / 199316789632 * k5 + (-1453857185 / 822651844 * k6 + 69997945 / 29380423 * d2))))))
    (A := |h| * (|-12715105075 / 11282082432 * d| + (|87487479700 / 32700410799 * k3| + (|-10690763975 / 1880347072 * k4| +
      (|701980252875 / 199316789632 * k5| + (|-1453857185 / 822651844 * k6| + |69997945 / 29380423 * d2|))))))
    (by rw [abs_mul]; exact mul_le_mul_of_nonneg_left habs (abs_nonneg _))
    (by rw [← mul_sub, abs_mul, mul_left_comm]; exact mul_le_mul_of_nonneg_left k (abs_nonneg _))
  rw [← hf] at this
  have hc : ((|fifthR R h d k3 k4 k5 k6 d2 - h * (-12715105075 / 11282082432 * d + (87487479700 / 32700410799 * k3 + (-10690763975 / 1880347072 * k4 +
    (701980252875 / 199316789632 * k5 + (-1453857185 / 822651844 * k6 + 69997945 / 29380423 * d2)))))| : ℚ) : ℝ) ≤ _ := Rat.cast_le.2 this
  push_cast at hc
  unfold d1 d3 d4 d5 d6 d7
  have e1 : (h : ℝ) * (-12715105075 / 11282082432 * d + 87487479700 / 32700410799 * k3 + -10690763975 / 1880347072 * k4 + 701980252875 / 199316789632 * k5 +
      -1453857185 / 822651844 * k6 + 69997945 / 29380423 * d2) = h * (-12715105075 / 11282082432 * d + (87487479700 / 32700410799 * k3 +
      (-10690763975 / 1880347072 * k4 + (701980252875 / 199316789632 * k5 + (-1453857185 / 822651844 * k6 + 69997945 / 29380423 * d2))))) := by ring
  rw [e1]
  refine le_trans hc (le_of_eq ?_)
  ring

/-- The equation `y' = -y`, computed exactly, is one to which this applies. -/
example : Smooth 1 (fun _ y i => -y i) (fun _ y i => -y i) 1 0 0 where
  L0 := by norm_num
  K0 := by norm_num
  near := fun t y i _ => by simp
  lip := fun t' t y' y τ δ _ hy i hi => by
    have := hy i hi
    show |-y' i - -y i| ≤ 1 * δ + 0 * τ
    rw [show -y' i - -y i = -(y' i - y i) by ring, abs_neg]
    linarith

end Softlib
