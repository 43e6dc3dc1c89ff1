/-
C148: the stored modes are the Legendre modes of the values of a CODE distribution.
Models: CodeModel.lean, CodeFileModel.lean, ModeModel.lean.
-/
import Verif.Dist.ModeProps
import Mathlib.MeasureTheory.Integral.IntervalIntegral.FundThmCalculus

namespace Softlib

open Softlib.Dist

/-! ### Legendre polynomials -/

/-- Derivatives of the Legendre polynomials. -/
noncomputable def legD (x : ℝ) : Nat → ℝ
  | 0 => 0
  | 1 => 1
  | n + 2 => ((2 * (n : ℝ) + 3) * (legP x (n + 1) + x * legD x (n + 1)) - ((n : ℝ) + 1) * legD x n) / ((n : ℝ) + 2)

theorem legP_hasDeriv (x : ℝ) (n : ℕ) : HasDerivAt (fun t => legP t n) (legD x n) x := by
  induction n using Nat.strong_induction_on with
  | _ n ih =>
    match n with
    | 0 => exact hasDerivAt_const x 1
    | 1 => exact hasDerivAt_id x
    | n + 2 =>
      have h1 := ih (n + 1) (by omega)
      have h0 := ih n (by omega)
      have := ((((hasDerivAt_id x).const_mul (2 * (n : ℝ) + 3)).mul h1).sub (h0.const_mul ((n : ℝ) + 1))).div_const ((n : ℝ) + 2)
      refine this.congr_deriv ?_
      simp only [legD, id]
      congr 1
      ring

theorem legP_continuous (n : ℕ) : Continuous fun t : ℝ => legP t n :=
  continuous_iff_continuousAt.2 fun x => (legP_hasDeriv x n).continuousAt

theorem legD_bonnet (x : ℝ) (n : ℕ) :
    ((n : ℝ) + 2) * legD x (n + 2) = (2 * (n : ℝ) + 3) * (legP x (n + 1) + x * legD x (n + 1)) - ((n : ℝ) + 1) * legD x n := by
  have := cast_ne (K := ℝ) n
  simp only [legD]
  field_simp

theorem legD_pair (x : ℝ) (n : ℕ) : legD x (n + 1) = x * legD x n + (n + 1) * legP x n ∧ x * legD x (n + 1) = legD x n + (n + 1) * legP x (n + 1) := by
  induction n with
  | zero => simp [legD, legP]
  | succ n ih =>
    obtain ⟨a, b⟩ := ih
    have h2 := cast_ne (K := ℝ) n
    have c := legD_bonnet x n
    have d := C61_bonnet x n
    have A : legD x (n + 2) = x * legD x (n + 1) + (n + 2) * legP x (n + 1) := by
      refine mul_left_cancel₀ h2 ?_
      rw [c]
      linear_combination ((n : ℝ) + 1) * b
    refine ⟨by push_cast; rw [show n + 1 + 1 = n + 2 from rfl, A]; ring, ?_⟩
    push_cast
    rw [show n + 1 + 1 = n + 2 from rfl, A]
    linear_combination x * b - a - d

/-- A Legendre polynomial is the derivative of the difference of its neighbours. -/
theorem legD_diff (x : ℝ) (n : ℕ) : legD x (n + 2) - legD x n = (2 * n + 3) * legP x (n + 1) := by
  have a := (legD_pair x (n + 1)).1
  have b := (legD_pair x n).2
  push_cast at a
  rw [show n + 2 = n + 1 + 1 from rfl, a, b]
  ring

theorem legP_mean (n : ℕ) : ∫ x in (-1 : ℝ)..1, legP x (n + 1) = 0 := by
  have hn : (2 * (n : ℝ) + 3) ≠ 0 := by positivity
  have key : ∫ x in (-1 : ℝ)..1, (2 * (n : ℝ) + 3) * legP x (n + 1) = (legP 1 (n + 2) - legP 1 n) - (legP (-1) (n + 2) - legP (-1) n) := by
    refine intervalIntegral.integral_eq_sub_of_hasDerivAt (f := fun x => legP x (n + 2) - legP x n) (fun x _ => ?_) ?_
    · rw [← legD_diff]
      exact (legP_hasDeriv x (n + 2)).sub (legP_hasDeriv x n)
    · exact ((legP_continuous (n + 1)).const_mul _).intervalIntegrable _ _
  rw [intervalIntegral.integral_const_mul, C61_parity, C61_parity, C61_one, C61_one, pow_add] at key
  have : (2 * (n : ℝ) + 3) * ∫ x in (-1 : ℝ)..1, legP x (n + 1) = 0 := by rw [key]; ring
  exact (mul_eq_zero.1 this).resolve_left hn

/-- Product of two Legendre polynomials, integrated. -/
noncomputable def legJ (m n : ℕ) : ℝ := ∫ x in (-1 : ℝ)..1, legP x m * legP x n

theorem legJ_int (m n : ℕ) : IntervalIntegrable (fun x : ℝ => legP x m * legP x n) MeasureTheory.volume (-1) 1 :=
  ((legP_continuous m).mul (legP_continuous n)).intervalIntegrable _ _

theorem legJ_symm (m n : ℕ) : legJ m n = legJ n m := by
  unfold legJ
  refine intervalIntegral.integral_congr fun x _ => mul_comm _ _

/-- Integral of `x P P`, from Bonnet's recursion. -/
theorem legJ_x (m n : ℕ) : (2 * (n : ℝ) + 3) * (∫ x in (-1 : ℝ)..1, x * (legP x m * legP x (n + 1))) = (n + 2) * legJ m (n + 2) + (n + 1) * legJ m n := by
  unfold legJ
  rw [← intervalIntegral.integral_const_mul, ← intervalIntegral.integral_const_mul, ← intervalIntegral.integral_const_mul,
    ← intervalIntegral.integral_add ((legJ_int m (n + 2)).const_mul _) ((legJ_int m n).const_mul _)]
  refine intervalIntegral.integral_congr fun x _ => ?_
  have := C61_bonnet x n
  linear_combination (- legP x m) * this

theorem legJ_x0 (m : ℕ) : (∫ x in (-1 : ℝ)..1, x * (legP x m * legP x 0)) = legJ m 1 := by
  unfold legJ
  refine intervalIntegral.integral_congr fun x _ => ?_
  simp only [legP]
  ring

theorem legJ_zero (n : ℕ) : legJ 0 n = if n = 0 then 2 else 0 := by
  unfold legJ
  match n with
  | 0 => simp [legP]; norm_num
  | n + 1 =>
    rw [if_neg (by omega), ← legP_mean n]
    refine intervalIntegral.integral_congr fun x _ => ?_
    simp [legP]

theorem legJ_one (n : ℕ) : legJ 1 n = if n = 1 then 2 / 3 else 0 := by
  rw [legJ_symm, ← legJ_x0]
  have e : (∫ x in (-1 : ℝ)..1, x * (legP x n * legP x 0)) = ∫ x in (-1 : ℝ)..1, x * (legP x 0 * legP x n) :=
    intervalIntegral.integral_congr fun x _ => by ring
  rw [e]
  match n with
  | 0 => rw [legJ_x0, legJ_zero]; simp
  | n + 1 =>
    have h := legJ_x 0 n
    have hn : (2 * (n : ℝ) + 3) ≠ 0 := by positivity
    rw [legJ_zero, legJ_zero, if_neg (by omega)] at h
    refine mul_left_cancel₀ hn ?_
    rw [h]
    by_cases h0 : n = 0
    · subst h0; norm_num
    · rw [if_neg h0, if_neg (by omega)]; ring

/-- **C148** The polynomials are orthogonal, and their squares have integral `2 / (2 l + 1)`. -/
theorem C148_orthogonal (m n : ℕ) : ∫ x in (-1 : ℝ)..1, legP x m * legP x n = if m = n then 2 / (2 * (m : ℝ) + 1) else 0 := by
  change legJ m n = _
  have main : ∀ m, (∀ n, legJ m n = if m = n then 2 / (2 * (m : ℝ) + 1) else 0) ∧
      (∀ n, legJ (m + 1) n = if m + 1 = n then 2 / (2 * ((m : ℝ) + 1) + 1) else 0) := by
    intro m
    induction m with
    | zero =>
      refine ⟨fun n => ?_, fun n => ?_⟩
      · rw [legJ_zero]
        by_cases h : n = 0
        · subst h; norm_num
        · rw [if_neg h, if_neg (by omega)]
      · rw [legJ_one]
        by_cases h : n = 1
        · subst h; norm_num
        · rw [if_neg h, if_neg (by omega)]
    | succ m ih =>
      obtain ⟨i0, i1⟩ := ih
      refine ⟨fun n => by rw [i1]; push_cast; rfl, fun n => ?_⟩
      have hm := cast_ne (K := ℝ) m
      have x1 := legJ_x n m
      have e : (∫ x in (-1 : ℝ)..1, x * (legP x n * legP x (m + 1))) = ∫ x in (-1 : ℝ)..1, x * (legP x (m + 1) * legP x n) :=
        intervalIntegral.integral_congr fun x _ => by ring
      rw [e, legJ_symm n, legJ_symm n, i0] at x1
      refine mul_left_cancel₀ hm ?_
      rw [show m + 1 + 1 = m + 2 from rfl]
      have x2 : ((m : ℝ) + 2) * legJ (m + 2) n = (2 * (m : ℝ) + 3) * (∫ x in (-1 : ℝ)..1, x * (legP x (m + 1) * legP x n)) -
          (m + 1) * (if m = n then 2 / (2 * (m : ℝ) + 1) else 0) := by linarith
      rw [x2]
      have m1 : (2 * (m : ℝ) + 1) ≠ 0 := by positivity
      have m3 : (2 * ((m : ℝ) + 1) + 1) ≠ 0 := by positivity
      have m5 : (2 * (((m + 1 : ℕ) : ℝ) + 1) + 1) ≠ 0 := by positivity
      match n with
      | 0 =>
        rw [legJ_x0, i1, if_neg (show ¬ m + 2 = 0 by omega)]
        by_cases h : m = 0
        · subst h; norm_num
        · rw [if_neg h, if_neg (by omega)]; ring
      | n + 1 =>
        have y1 := legJ_x (m + 1) n
        have hn : (2 * (n : ℝ) + 3) ≠ 0 := by positivity
        have y2 : (∫ x in (-1 : ℝ)..1, x * (legP x (m + 1) * legP x (n + 1))) = ((n + 2) * legJ (m + 1) (n + 2) + (n + 1) * legJ (m + 1) n) / (2 * (n : ℝ) + 3) := by
          rw [eq_div_iff hn]; linarith
        rw [y2, i1, i1]
        by_cases h : m = n + 1
        · subst h
          rw [if_pos rfl, if_pos rfl, if_neg (by omega), if_neg (by omega)]
          push_cast at *
          field_simp
          ring
        · by_cases h' : m + 1 = n
          · subst h'
            rw [if_neg h, if_neg (by omega), if_pos rfl, if_pos rfl]
            push_cast at *
            field_simp
            ring
          · rw [if_neg h, if_neg (by omega), if_neg h', if_neg (by omega)]
            simp
  exact (main m).1 n

/-! ### values and modes -/

theorem legSum_continuous (fs : List ℝ) : Continuous fun x : ℝ => legSum fs x := by
  unfold legSum
  exact continuous_finsetSum _ fun i _ => ((legP_continuous i).const_mul _).mul_const _

theorem leg_refl (l : ℕ) : Continuous fun x : ℝ => legP (-x) l := (legP_continuous l).comp continuous_neg

theorem legSum_proj (fs : List ℝ) (l : ℕ) : ∫ x in (-1 : ℝ)..1, legSum fs x * legP (-x) l = 2 / (2 * (l : ℝ) + 1) * fs.getD l 0 := by
  have e : ∀ x : ℝ, legSum fs x * legP (-x) l = ∑ i ∈ Finset.range fs.length, fs.getD i 0 * (-1) ^ i * (-1) ^ l * (legP x i * legP x l) := by
    intro x
    rw [legSum, C61_parity, Finset.sum_mul]
    refine Finset.sum_congr rfl fun i _ => ?_
    ring
  simp only [e]
  rw [intervalIntegral.integral_finset_sum fun i _ => (legJ_int i l).const_mul _]
  simp only [intervalIntegral.integral_const_mul, C148_orthogonal, mul_ite, mul_zero]
  rw [Finset.sum_ite_eq' (Finset.range fs.length) l]
  by_cases h : l < fs.length
  · rw [if_pos (Finset.mem_range.2 h)]
    have : ((-1 : ℝ) ^ l) * (-1) ^ l = 1 := by rw [← mul_pow]; norm_num
    linear_combination (fs.getD l 0 * (2 / (2 * (l : ℝ) + 1))) * this
  · rw [if_neg (by simpa using h), List.getD_eq_default _ _ (by omega), mul_zero]

/-- The integral over the pitch of a sum cut off at zero. -/
theorem cut_mean (fs : List ℝ) : 2 * fs.getD 0 0 ≤ (∫ x in (-1 : ℝ)..1, max 0 (legSum fs x)) ∧
    ((∫ x in (-1 : ℝ)..1, max 0 (legSum fs x)) = 2 * fs.getD 0 0 ↔ ∀ x, -1 ≤ x → x ≤ 1 → 0 ≤ legSum fs x) := by
  have h0 := legSum_proj fs 0
  simp only [legP, mul_one, Nat.cast_zero, mul_zero, zero_add, div_one] at h0
  have c1 := legSum_continuous fs
  have c2 : Continuous fun x : ℝ => max 0 (legSum fs x) := continuous_const.max c1
  have le : 2 * fs.getD 0 0 ≤ (∫ x in (-1 : ℝ)..1, max 0 (legSum fs x)) := by
    rw [← h0]
    exact intervalIntegral.integral_mono (by norm_num) (c1.intervalIntegrable _ _) (c2.intervalIntegrable _ _) fun x => le_max_right _ _
  refine ⟨le, fun h x hx1 hx2 => ?_, fun h => ?_⟩
  · by_contra hn
    rw [not_le] at hn
    have := intervalIntegral.integral_lt_integral_of_continuousOn_of_le_of_exists_lt (f := fun x => legSum fs x) (g := fun x => max 0 (legSum fs x))
      (a := -1) (b := 1) (by norm_num) c1.continuousOn c2.continuousOn (fun x _ => le_max_right _ _)
      ⟨x, ⟨hx1, hx2⟩, by change _ < max 0 _; rw [max_eq_left hn.le]; exact hn⟩
    rw [h0, h] at this
    exact lt_irrefl _ this
  · rw [← h0]
    refine intervalIntegral.integral_congr fun x hx => ?_
    rw [Set.uIcc_of_le (by norm_num)] at hx
    exact max_eq_right (h x hx.1 hx.2)

theorem mode_getD (modes : List (ℝ → ℝ)) (p : ℝ) (l : ℕ) : (modes.map fun f => f p).getD l 0 = (modes.getD l 0) p :=
  List.getD_map modes (0 : ℝ → ℝ) fun f : ℝ → ℝ => f p

/-- The sum of the modes of a CODE distribution at momentum `p`. -/
noncomputable def modeSum (modes : List (ℝ → ℝ)) (p x : ℝ) : ℝ := ∑ i ∈ Finset.range modes.length, (modes.getD i 0) p * legP (-x) i

theorem modeSum_eq (modes : List (ℝ → ℝ)) (p x : ℝ) : legSum (modes.map fun f => f p) x = modeSum modes p x := by
  rw [C60_reversed_pitch, modeSum, List.length_map]
  exact Finset.sum_congr rfl fun i _ => by rw [mode_getD]

/-- A distribution after evaluations, with its values at momentum `p`. -/
theorem code_values (p0 pN : ℝ) (modes : List (ℝ → ℝ)) (garbage : List ℝ) (hg : garbage.length = modes.length) (h2 : 2 ≤ modes.length)
    (ops : List (CodeOp ℝ)) (hops : ∀ o ∈ ops, o.isEval = true) (p : ℝ) (hp1 : min p0 pN ≤ p) (hp2 : p ≤ max p0 pN) :
    ∃ c, runCode (Code.new p0 pN modes garbage) ops = some c ∧ ∀ x, ∃ c', c.eval p x = some (max 0 (legSum (modes.map fun f => f p) x), c') := by
  obtain ⟨c, c0, e, _⟩ := C60_history_partial p0 pN modes garbage hg h2 ops hops p 0
  refine ⟨c, e, fun x => ?_⟩
  obtain ⟨d, c', e', v⟩ := C60_history_partial p0 pN modes garbage hg h2 ops hops p x
  rw [e] at e'
  obtain rfl := Option.some.inj e'
  refine ⟨c', ?_⟩
  rw [v, codeValue, if_neg]
  · rfl
  · rintro (h | h)
    · exact absurd hp1 (not_le.2 h)
    · exact absurd hp2 (not_le.2 h)

/-- **C148** After any evaluations, at a momentum where the sum of the modes is nowhere negative, the Legendre modes of the values
are the stored modes (and zero beyond their number).  The pitch is counted from the opposite direction. -/
theorem C148_modes (p0 pN : ℝ) (modes : List (ℝ → ℝ)) (garbage : List ℝ) (hg : garbage.length = modes.length) (h2 : 2 ≤ modes.length)
    (ops : List (CodeOp ℝ)) (hops : ∀ o ∈ ops, o.isEval = true) (p : ℝ) (hp1 : min p0 pN ≤ p) (hp2 : p ≤ max p0 pN)
    (hpos : ∀ x, -1 ≤ x → x ≤ 1 → 0 ≤ modeSum modes p x) :
    ∃ c, runCode (Code.new p0 pN modes garbage) ops = some c ∧ ∃ F : ℝ → ℝ, (∀ x, ∃ c', c.eval p x = some (F x, c')) ∧
      (∀ l, l < modes.length → (2 * (l : ℝ) + 1) / 2 * (∫ x in (-1 : ℝ)..1, F x * legP (-x) l) = (modes.getD l 0) p) ∧
      ∀ l, modes.length ≤ l → (∫ x in (-1 : ℝ)..1, F x * legP (-x) l) = 0 := by
  obtain ⟨c, e, hv⟩ := code_values p0 pN modes garbage hg h2 ops hops p hp1 hp2
  have key : ∀ l, (∫ x in (-1 : ℝ)..1, max 0 (legSum (modes.map fun f => f p) x) * legP (-x) l) = 2 / (2 * (l : ℝ) + 1) * (modes.getD l 0) p := by
    intro l
    rw [← mode_getD, ← legSum_proj]
    refine intervalIntegral.integral_congr fun x hx => ?_
    rw [Set.uIcc_of_le (by norm_num)] at hx
    have : max 0 (legSum (modes.map fun f => f p) x) = legSum (modes.map fun f => f p) x :=
      max_eq_right (by rw [modeSum_eq]; exact hpos x hx.1 hx.2)
    simp only [this]
  refine ⟨c, e, _, hv, fun l _ => ?_, fun l hl => ?_⟩
  · rw [key l]
    have : (2 * (l : ℝ) + 1) ≠ 0 := by positivity
    field_simp
  · rw [key l, List.getD_eq_default _ _ hl]
    simp

/-- **C148** Without the condition on the sign, the values integrated over the pitch are at least twice the first mode, with
equality exactly if the sum of the modes is nowhere negative. -/
theorem C148_mean (p0 pN : ℝ) (modes : List (ℝ → ℝ)) (garbage : List ℝ) (hg : garbage.length = modes.length) (h2 : 2 ≤ modes.length)
    (ops : List (CodeOp ℝ)) (hops : ∀ o ∈ ops, o.isEval = true) (p : ℝ) (hp1 : min p0 pN ≤ p) (hp2 : p ≤ max p0 pN) :
    ∃ c, runCode (Code.new p0 pN modes garbage) ops = some c ∧ ∃ F : ℝ → ℝ, (∀ x, ∃ c', c.eval p x = some (F x, c')) ∧
      2 * (modes.getD 0 0) p ≤ (∫ x in (-1 : ℝ)..1, F x) ∧
      ((∫ x in (-1 : ℝ)..1, F x) = 2 * (modes.getD 0 0) p ↔ ∀ x, -1 ≤ x → x ≤ 1 → 0 ≤ modeSum modes p x) := by
  obtain ⟨c, e, hv⟩ := code_values p0 pN modes garbage hg h2 ops hops p hp1 hp2
  obtain ⟨a, b⟩ := cut_mean (modes.map fun f => f p)
  rw [mode_getD] at a b
  simp only [modeSum_eq] at b
  refine ⟨c, e, _, hv, a, ?_⟩
  simp only [modeSum_eq]
  exact b

/-- **C148** The integral of the square of the values is the sum of the squares of the modes, each times `2 / (2 l + 1)`. -/
theorem C148_square (p0 pN : ℝ) (modes : List (ℝ → ℝ)) (garbage : List ℝ) (hg : garbage.length = modes.length) (h2 : 2 ≤ modes.length)
    (ops : List (CodeOp ℝ)) (hops : ∀ o ∈ ops, o.isEval = true) (p : ℝ) (hp1 : min p0 pN ≤ p) (hp2 : p ≤ max p0 pN)
    (hpos : ∀ x, -1 ≤ x → x ≤ 1 → 0 ≤ modeSum modes p x) :
    ∃ c, runCode (Code.new p0 pN modes garbage) ops = some c ∧ ∃ F : ℝ → ℝ, (∀ x, ∃ c', c.eval p x = some (F x, c')) ∧
      (∫ x in (-1 : ℝ)..1, F x ^ 2) = ∑ l ∈ Finset.range modes.length, 2 / (2 * (l : ℝ) + 1) * (modes.getD l 0) p ^ 2 := by
  obtain ⟨c, e, hv⟩ := code_values p0 pN modes garbage hg h2 ops hops p hp1 hp2
  refine ⟨c, e, _, hv, ?_⟩
  have e1 : (∫ x in (-1 : ℝ)..1, max 0 (legSum (modes.map fun f => f p) x) ^ 2) =
      ∫ x in (-1 : ℝ)..1, ∑ l ∈ Finset.range modes.length, (modes.getD l 0) p * (legSum (modes.map fun f => f p) x * legP (-x) l) := by
    refine intervalIntegral.integral_congr fun x hx => ?_
    rw [Set.uIcc_of_le (by norm_num)] at hx
    have : max 0 (legSum (modes.map fun f => f p) x) = legSum (modes.map fun f => f p) x :=
      max_eq_right (by rw [modeSum_eq]; exact hpos x hx.1 hx.2)
    simp only [this]
    rw [sq]
    nth_rewrite 1 [modeSum_eq]
    rw [modeSum, Finset.sum_mul]
    exact Finset.sum_congr rfl fun i _ => by ring
  have hi : ∀ i ∈ Finset.range modes.length, IntervalIntegrable (fun x : ℝ => (modes.getD i 0) p * (legSum (modes.map fun f => f p) x * legP (-x) i))
      MeasureTheory.volume (-1) 1 := by
    intro i _
    have c1 := legSum_continuous (modes.map fun f => f p)
    have c2 := leg_refl i
    exact (continuous_const.mul (c1.mul c2)).intervalIntegrable _ _
  rw [e1, intervalIntegral.integral_finset_sum hi]
  refine Finset.sum_congr rfl fun i _ => ?_
  rw [intervalIntegral.integral_const_mul, legSum_proj, mode_getD]
  ring

/-- **C148** Distributions with the same values, at a momentum where they are not cut off, have the same modes there. -/
theorem C148_unique (p0 pN : ℝ) (modes modes' : List (ℝ → ℝ)) (garbage garbage' : List ℝ) (hg : garbage.length = modes.length)
    (hg' : garbage'.length = modes'.length) (hl : modes'.length = modes.length) (h2 : 2 ≤ modes.length) (p : ℝ)
    (hp1 : min p0 pN ≤ p) (hp2 : p ≤ max p0 pN) (hpos : ∀ x, -1 ≤ x → x ≤ 1 → 0 ≤ modeSum modes p x)
    (hpos' : ∀ x, -1 ≤ x → x ≤ 1 → 0 ≤ modeSum modes' p x)
    (h : ∀ x, -1 ≤ x → x ≤ 1 → ((Code.new p0 pN modes garbage).eval p x).map Prod.fst = ((Code.new p0 pN modes' garbage').eval p x).map Prod.fst)
    (l : ℕ) (hll : l < modes.length) : (modes.getD l 0) p = (modes'.getD l 0) p := by
  obtain ⟨c, e, F, hF, hm, _⟩ := C148_modes p0 pN modes garbage hg h2 [] (by simp) p hp1 hp2 hpos
  obtain ⟨c', e', F', hF', hm', _⟩ := C148_modes p0 pN modes' garbage' hg' (by omega) [] (by simp) p hp1 hp2 hpos'
  obtain rfl : Code.new p0 pN modes garbage = c := Option.some.inj e
  obtain rfl : Code.new p0 pN modes' garbage' = c' := Option.some.inj e'
  rw [← hm l hll, ← hm' l (by omega)]
  congr 1
  refine intervalIntegral.integral_congr fun x hx => ?_
  rw [Set.uIcc_of_le (by norm_num)] at hx
  have := h x hx.1 hx.2
  obtain ⟨d, hd⟩ := hF x
  obtain ⟨d', hd'⟩ := hF' x
  rw [hd, hd'] at this
  have : F x = F' x := by simpa using this
  simp only [this]

/-- **C148** Files, all types of interpolation: at the stored momenta the modes of the values are the stored modes. -/
theorem C148_file {me : ℝ} (hme : 0 < me) (garbage : Nat → List ℝ)
    (hgl : ∀ n, (garbage n).length = n) {F : CodeFile} {d : CodeData} (hF : CodeFileOf F d) (hs : CodeSizes d) (hT : 0 < d.Tref)
    {time : Int} {t : Nat} (ht : IsTime d.nt time t) {itype : Int} (hg : CodeGood d itype) (h2 : 2 ≤ d.nleg)
    (hpos : ∀ j x, j < d.np → -1 ≤ x → x ≤ 1 → 0 ≤ d.sum me t j x) :
    ∃ c, codeLoad me (gslMode) garbage F time itype = .ok c ∧
      ∀ ops : List (CodeOp ℝ), (∀ o ∈ ops, o.isEval = true) → ∃ c1, runCode c ops = some c1 ∧ ∀ j, j < d.np →
        ∃ V : ℝ → ℝ, (∀ xi, ∃ c2, c1.eval (d.p j) xi = some (V xi, c2)) ∧
          ∀ l, l < d.nleg → (2 * (l : ℝ) + 1) / 2 * (∫ x in (-1 : ℝ)..1, V x * legP (-x) l) = d.mode me t l j := by
  obtain ⟨c, e, h⟩ := C125_file_partial hme garbage hgl hF hs hT ht hg h2
  refine ⟨c, e, fun ops hops => ?_⟩
  obtain ⟨c1, e1, h1⟩ := h ops hops
  refine ⟨c1, e1, fun j hj => ⟨_, fun xi => h1 j xi hj, fun l hl => ?_⟩⟩
  have e2 : ∀ x, d.sum me t j x = legSum ((List.range d.nleg).map fun k => d.mode me t k j) x := by
    intro x
    rw [C60_reversed_pitch, CodeData.sum]
    simp only [List.length_map, List.length_range]
    refine Finset.sum_congr rfl fun i hi => ?_
    have hi' := Finset.mem_range.1 hi
    rw [List.getD_eq_getElem?_getD, List.getElem?_map, List.getElem?_range hi']
    rfl
  have e3 : (∫ x in (-1 : ℝ)..1, max 0 (d.sum me t j x) * legP (-x) l) = 2 / (2 * (l : ℝ) + 1) * d.mode me t l j := by
    have := legSum_proj ((List.range d.nleg).map fun k => d.mode me t k j) l
    rw [List.getD_eq_getElem?_getD, List.getElem?_map, List.getElem?_range hl] at this
    rw [show d.mode me t l j = (Option.map (fun k => d.mode me t k j) (some l)).getD 0 from rfl, ← this]
    refine intervalIntegral.integral_congr fun x hx => ?_
    rw [Set.uIcc_of_le (by norm_num)] at hx
    have := hpos j x hj hx.1 hx.2
    simp only [max_eq_right this]
    rw [e2]
  rw [e3]
  have : (2 * (l : ℝ) + 1) ≠ 0 := by positivity
  field_simp

/-- **C148** The condition on the sign is needed: modes `0, 1` (nothing but a current) give values that integrate to one half. -/
theorem C148_sign_needed (garbage : List ℝ) (hg : garbage.length = 2) :
    ∃ F : ℝ → ℝ, (∀ x, ∃ c', (Code.new 0 1 [fun _ => 0, fun _ => 1] garbage).eval 0 x = some (F x, c')) ∧
      (∫ x in (-1 : ℝ)..1, F x) ≠ 2 * 0 := by
  obtain ⟨c, e, F, hF, _, hm⟩ := C148_mean 0 1 [fun _ => 0, fun _ => 1] garbage hg (by simp) [] (by simp) 0 (by simp) (by simp)
  obtain rfl : Code.new 0 1 [fun _ => 0, fun _ => 1] garbage = c := Option.some.inj e
  refine ⟨F, hF, fun h => ?_⟩
  have := hm.1 (by simpa using h) 1 (by norm_num) le_rfl
  norm_num [modeSum, legP, Finset.sum_range_succ] at this

/-- Modes `2, 1`: never negative. -/
example (garbage : List ℝ) (hg : garbage.length = 2) : ∃ c, ∃ F : ℝ → ℝ, runCode (Code.new 0 1 [fun _ => 2, fun _ => 1] garbage) [] = some c ∧
    (∀ x, ∃ c', c.eval 0 x = some (F x, c')) ∧ 3 / 2 * (∫ x in (-1 : ℝ)..1, F x * -x) = 1 := by
  obtain ⟨c, e, F, hF, hm, _⟩ := C148_modes 0 1 [fun _ => 2, fun _ => 1] garbage hg (by simp) [] (by simp) 0 (by simp) (by simp)
    (fun x h1 h2 => by norm_num [modeSum, legP, Finset.sum_range_succ]; linarith)
  refine ⟨c, F, e, hF, ?_⟩
  have := hm 1 (by simp)
  norm_num [legP] at this ⊢
  exact this

end Softlib
