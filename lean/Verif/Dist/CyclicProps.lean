/-
The cyclic system of the periodic cubic spline (C125).  Model: ModeModel.lean.
-/
import Verif.Dist.ModeModel
import Mathlib.Tactic.Linarith
import Mathlib.Tactic.LinearCombination
import Mathlib.Tactic.FieldSimp

namespace Softlib

open Softlib.Magnetic Softlib.Dist

noncomputable section

/-- Off-diagonal elements are positive, and a diagonal element is at least twice the sum of those in its row. -/
structure CycDominant (d o : Nat → ℝ) (m : Nat) : Prop where
  pos : ∀ i, i < m + 3 → 0 < o i
  first : 2 * (o 0 + o (m + 2)) ≤ d 0
  next : ∀ i, i < m + 2 → 2 * (o (i + 1) + o i) ≤ d (i + 1)

variable {d o : Nat → ℝ} {m : Nat}

theorem cyc_bounds (h : CycDominant d o m) (i : Nat) (hi : i ≤ m) :
    0 < cycPivot d o i ∧ 2 * (o i + cycPivot d o i * |cycDelta d o (m + 3) i|) ≤ cycPivot d o i := by
  induction i with
  | zero =>
    have h0 := h.pos 0 (by omega)
    have h1 := h.pos (m + 2) (by omega)
    have hp : 0 < cycPivot d o 0 := by
      have := h.first
      simp only [cycPivot]; linarith
    refine ⟨hp, ?_⟩
    have e : cycPivot d o 0 * |cycDelta d o (m + 3) 0| = o (m + 2) := by
      simp only [cycDelta]
      rw [show m + 3 - 1 = m + 2 by omega, abs_div, abs_of_pos h1, abs_of_pos hp]
      field_simp
    rw [e]; exact h.first
  | succ i ih =>
    obtain ⟨hp, hb⟩ := ih (by omega)
    have ho := h.pos i (by omega)
    have ho' := h.pos (i + 1) (by omega)
    have hn := h.next i (by omega)
    have hg : o i / cycPivot d o i ≤ 1 / 2 := by
      rw [div_le_div_iff₀ hp (by norm_num)]
      nlinarith [mul_nonneg hp.le (abs_nonneg (cycDelta d o (m + 3) i))]
    have hgd : o i / cycPivot d o i + |cycDelta d o (m + 3) i| ≤ 1 / 2 := by
      have e : o i / cycPivot d o i + |cycDelta d o (m + 3) i| =
          (o i + cycPivot d o i * |cycDelta d o (m + 3) i|) / cycPivot d o i := by field_simp
      rw [e, div_le_div_iff₀ hp (by norm_num)]
      linarith
    have hg0 : 0 < o i / cycPivot d o i := div_pos ho hp
    have hd0 := abs_nonneg (cycDelta d o (m + 3) i)
    have hp' : 0 < cycPivot d o (i + 1) := by
      simp only [cycPivot]
      nlinarith
    refine ⟨hp', ?_⟩
    have e : cycPivot d o (i + 1) * |cycDelta d o (m + 3) (i + 1)| = |cycDelta d o (m + 3) i| * o i := by
      conv_lhs => rw [cycDelta]
      rw [abs_div, abs_mul, abs_neg, abs_of_pos hp', abs_of_pos ho]
      field_simp
    rw [e]
    simp only [cycPivot]
    nlinarith

theorem cyc_step (h : CycDominant d o m) (i : Nat) (hi : i ≤ m) :
    0 ≤ o i / cycPivot d o i ∧ o i / cycPivot d o i + |cycDelta d o (m + 3) i| ≤ 1 / 2 := by
  obtain ⟨hp, hb⟩ := cyc_bounds h i hi
  refine ⟨(div_pos (h.pos i (by omega)) hp).le, ?_⟩
  have e : o i / cycPivot d o i + |cycDelta d o (m + 3) i| = (o i + cycPivot d o i * |cycDelta d o (m + 3) i|) / cycPivot d o i := by
    field_simp
  rw [e, div_le_div_iff₀ hp (by norm_num)]
  linarith

theorem cyc_pivot_one (h : CycDominant d o m) :
    0 < cycPivot d o (m + 1) ∧ |cycGamma d o (m + 3)| ≤ 1 / 2 ∧
      cycPivot d o (m + 1) * cycGamma d o (m + 3) = o (m + 1) - o m * cycDelta d o (m + 3) m := by
  obtain ⟨hg0, hgd⟩ := cyc_step h m (le_refl _)
  have ho := h.pos m (by omega)
  have ho' := h.pos (m + 1) (by omega)
  have hn := h.next m (by omega)
  have hd0 := abs_nonneg (cycDelta d o (m + 3) m)
  have hp : 0 < cycPivot d o (m + 1) := by
    simp only [cycPivot]
    nlinarith
  have e : cycPivot d o (m + 1) * cycGamma d o (m + 3) = o (m + 1) - o m * cycDelta d o (m + 3) m := by
    unfold cycGamma
    rw [show m + 3 - 2 = m + 1 by omega, show m + 3 - 3 = m by omega]
    field_simp
  refine ⟨hp, ?_, e⟩
  have hab : cycPivot d o (m + 1) * |cycGamma d o (m + 3)| ≤ o (m + 1) + o m * |cycDelta d o (m + 3) m| := by
    rw [← abs_of_pos hp, ← abs_mul, e]
    calc _ ≤ |o (m + 1)| + |o m * cycDelta d o (m + 3) m| := abs_sub _ _
      _ = _ := by rw [abs_mul, abs_of_pos ho, abs_of_pos ho']
  have h2 : 2 * (o (m + 1) + o m * |cycDelta d o (m + 3) m|) ≤ cycPivot d o (m + 1) := by
    simp only [cycPivot]
    nlinarith
  by_contra hc
  push_neg at hc
  nlinarith

/-- Values that satisfy the equations of the back substitution. -/
structure CycBacked (d o : Nat → ℝ) (m : Nat) (z v : Nat → ℝ) (X : ℝ) : Prop where
  top : v (m + 1) = z (m + 1) / cycPivot d o (m + 1) - cycGamma d o (m + 3) * X
  down : ∀ i, i ≤ m → v i = z i / cycPivot d o i - o i / cycPivot d o i * v (i + 1) - cycDelta d o (m + 3) i * X

theorem cyc_telescope (h : CycDominant d o m) {z v : Nat → ℝ} {X : ℝ} (hv : CycBacked d o m z v X) (k : Nat) (hk : k ≤ m) :
    o (m + 2) * v 0 = loopSum (fun i => cycDelta d o (m + 3) i * z i) k
      - loopSum (fun i => cycPivot d o i * cycDelta d o (m + 3) i * cycDelta d o (m + 3) i) k * X
      + cycPivot d o k * cycDelta d o (m + 3) k * v k := by
  induction k with
  | zero =>
    have hp := (cyc_bounds h 0 (by omega)).1
    simp only [loopSum, cycDelta]
    rw [show m + 3 - 1 = m + 2 by omega]
    field_simp
    ring
  | succ k ih =>
    have hp := (cyc_bounds h k (by omega)).1
    have hp' := (cyc_bounds h (k + 1) hk).1
    have e : cycPivot d o (k + 1) * cycDelta d o (m + 3) (k + 1) = -cycDelta d o (m + 3) k * o k := by
      conv_lhs => rw [cycDelta]
      field_simp
    have e2 : cycPivot d o k * v k = z k - o k * v (k + 1) - cycPivot d o k * cycDelta d o (m + 3) k * X := by
      rw [hv.down k (by omega)]; field_simp
    rw [ih (by omega), e]
    simp only [loopSum]
    linear_combination cycDelta d o (m + 3) k * e2

theorem cyc_last_row (h : CycDominant d o m) {z v : Nat → ℝ} {X : ℝ} (hv : CycBacked d o m z v X) :
    o (m + 2) * v 0 + o (m + 1) * v (m + 1) + d (m + 2) * X =
      loopSum (fun i => cycDelta d o (m + 3) i * z i) (m + 1) + cycGamma d o (m + 3) * z (m + 1) + cycPivotLast d o (m + 3) * X := by
  have ht := cyc_telescope h hv m (le_refl _)
  have hp := (cyc_bounds h m (le_refl _)).1
  obtain ⟨hp1, -, hg⟩ := cyc_pivot_one h
  have e2 : cycPivot d o m * v m = z m - o m * v (m + 1) - cycPivot d o m * cycDelta d o (m + 3) m * X := by
    rw [hv.down m (le_refl _)]; field_simp
  have e3 : cycPivot d o (m + 1) * v (m + 1) = z (m + 1) - cycPivot d o (m + 1) * cycGamma d o (m + 3) * X := by
    rw [hv.top]; field_simp
  unfold cycPivotLast
  rw [show m + 3 - 1 = m + 2 by omega, show m + 3 - 2 = m + 1 by omega]
  simp only [loopSum]
  linear_combination ht + cycDelta d o (m + 3) m * e2 + cycGamma d o (m + 3) * e3 - v (m + 1) * hg

/-- The last pivot is positive, too. -/
theorem cyc_pivot_last (h : CycDominant d o m) : 0 < cycPivotLast d o (m + 3) := by
  let w : Nat → ℝ := fun k => Nat.rec (-cycGamma d o (m + 3)) (fun k r => -(o (m - k) / cycPivot d o (m - k)) * r - cycDelta d o (m + 3) (m - k)) k
  have w0 : w 0 = -cycGamma d o (m + 3) := rfl
  have ws : ∀ k, w (k + 1) = -(o (m - k) / cycPivot d o (m - k)) * w k - cycDelta d o (m + 3) (m - k) := fun k => rfl
  have hb : CycBacked d o m (fun _ => 0) (fun i => w (m + 1 - i)) 1 := by
    refine ⟨?_, fun i hi => ?_⟩
    · simp only [Nat.sub_self, w0]; ring
    · have e : m + 1 - i = (m - i) + 1 := by omega
      have e2 : m + 1 - (i + 1) = m - i := by omega
      simp only [e, e2, ws]
      rw [show m - (m - i) = i by omega]; ring
  have hw : ∀ k, |w k| ≤ 1 / 2 := by
    intro k
    induction k with
    | zero => rw [w0, abs_neg]; exact (cyc_pivot_one h).2.1
    | succ k ih =>
      obtain ⟨g0, gd⟩ := cyc_step h (m - k) (by omega)
      rw [ws]
      calc _ ≤ |-(o (m - k) / cycPivot d o (m - k)) * w k| + |cycDelta d o (m + 3) (m - k)| := abs_sub _ _
        _ = o (m - k) / cycPivot d o (m - k) * |w k| + |cycDelta d o (m + 3) (m - k)| := by
            rw [abs_mul, abs_neg, abs_of_nonneg g0]
        _ ≤ 1 / 2 := by nlinarith [abs_nonneg (w k)]
  have hr := cyc_last_row h hb
  have hz : ∀ k, loopSum (fun i => cycDelta d o (m + 3) i * 0) k = 0 := by
    intro k
    induction k with
    | zero => rfl
    | succ k ih => simp only [loopSum, ih]; ring
  rw [hz] at hr
  have b0 := abs_le.mp (hw (m + 1))
  have b1 := abs_le.mp (hw 0)
  have ho := h.pos (m + 1) (by omega)
  have ho' := h.pos (m + 2) (by omega)
  have hn := h.next (m + 1) (by omega)
  simp only [Nat.sub_self, Nat.sub_zero] at hr
  nlinarith [b0.1, b1.1]

theorem cyc_backed (h : CycDominant d o m) (b : Nat → ℝ) :
    CycBacked d o m (cycZ d o b) (cycSolve d o (m + 3) b) (cycLast d o (m + 3) b) := by
  refine ⟨?_, fun i hi => ?_⟩
  · unfold cycSolve
    rw [if_neg (by omega), show m + 3 - 2 - (m + 1) = 0 by omega, cycBack, show m + 3 - 2 = m + 1 by omega]
  · unfold cycSolve
    rw [if_neg (by omega), if_neg (by omega), show m + 3 - 2 - i = (m - i) + 1 by omega, cycBack,
      show m + 3 - 3 - (m - i) = i by omega, show m + 3 - 2 - (i + 1) = m - i by omega]

/-- The result solves the system. -/
theorem cyc_solves (h : CycDominant d o m) (b : Nat → ℝ) :
    (d 0 * cycSolve d o (m + 3) b 0 + o 0 * cycSolve d o (m + 3) b 1 + o (m + 2) * cycSolve d o (m + 3) b (m + 2) = b 0) ∧
    (∀ i, i ≤ m → o i * cycSolve d o (m + 3) b i + d (i + 1) * cycSolve d o (m + 3) b (i + 1) +
      o (i + 1) * cycSolve d o (m + 3) b (i + 2) = b (i + 1)) ∧
    o (m + 2) * cycSolve d o (m + 3) b 0 + o (m + 1) * cycSolve d o (m + 3) b (m + 1) + d (m + 2) * cycSolve d o (m + 3) b (m + 2) =
      b (m + 2) := by
  have hv := cyc_backed h b
  have hX : cycSolve d o (m + 3) b (m + 2) = cycLast d o (m + 3) b := by unfold cycSolve; rw [if_pos (by omega)]
  have hpl := cyc_pivot_last h
  have hmul : ∀ i, i ≤ m → cycPivot d o i * cycSolve d o (m + 3) b i = cycZ d o b i - o i * cycSolve d o (m + 3) b (i + 1)
      - cycPivot d o i * cycDelta d o (m + 3) i * cycLast d o (m + 3) b := by
    intro i hi
    have hp := (cyc_bounds h i hi).1
    rw [hv.down i hi]; field_simp
  obtain ⟨hp1, -, hg⟩ := cyc_pivot_one h
  have htop : cycPivot d o (m + 1) * cycSolve d o (m + 3) b (m + 1) = cycZ d o b (m + 1)
      - cycPivot d o (m + 1) * cycGamma d o (m + 3) * cycLast d o (m + 3) b := by
    rw [hv.top]; field_simp
  refine ⟨?_, fun i hi => ?_, ?_⟩
  · have e0 : cycPivot d o 0 * cycDelta d o (m + 3) 0 = o (m + 2) := by
      have hp := (cyc_bounds h 0 (by omega)).1
      simp only [cycDelta]
      rw [show m + 3 - 1 = m + 2 by omega]; field_simp
    have h0 := hmul 0 (by omega)
    rw [e0] at h0
    simp only [cycPivot, cycZ, Nat.zero_add] at h0
    rw [hX]
    linear_combination h0
  · have hp := (cyc_bounds h i hi).1
    have hi0 := hmul i hi
    have hz : cycZ d o b (i + 1) = b (i + 1) - cycZ d o b i * (o i / cycPivot d o i) := rfl
    have hpv : cycPivot d o (i + 1) = d (i + 1) - o i * (o i / cycPivot d o i) := rfl
    have hoi : o i * cycSolve d o (m + 3) b i = o i / cycPivot d o i * (cycZ d o b i - o i * cycSolve d o (m + 3) b (i + 1))
        - o i * cycDelta d o (m + 3) i * cycLast d o (m + 3) b := by
      rw [show cycZ d o b i - o i * cycSolve d o (m + 3) b (i + 1) = cycPivot d o i * cycSolve d o (m + 3) b i
        + cycPivot d o i * cycDelta d o (m + 3) i * cycLast d o (m + 3) b by linarith]
      field_simp
      ring
    rcases Nat.lt_or_ge i m with hlt | hge
    · have h1 := hmul (i + 1) (by omega)
      have e : cycPivot d o (i + 1) * cycDelta d o (m + 3) (i + 1) = -cycDelta d o (m + 3) i * o i := by
        have := (cyc_bounds h (i + 1) (by omega)).1
        conv_lhs => rw [cycDelta]
        field_simp
      rw [e, hz] at h1
      rw [hpv] at h1
      linear_combination hoi + h1
    · have him : i = m := by omega
      subst him
      rw [hg, hz] at htop
      rw [hpv] at htop
      rw [hX]
      linear_combination hoi + htop
  · have hr := cyc_last_row h hv
    rw [hX, hr]
    have e : cycLast d o (m + 3) b * cycPivotLast d o (m + 3) = b (m + 2) - loopSum (fun i => cycDelta d o (m + 3) i * cycZ d o b i) (m + 1)
        - cycGamma d o (m + 3) * cycZ d o b (m + 1) := by
      unfold cycLast
      rw [show m + 3 - 1 = m + 2 by omega, show m + 3 - 2 = m + 1 by omega, div_mul_cancel₀ _ hpl.ne']
    linear_combination e

end

end Softlib
