/-
Distributions in the old SOFT format: the verification (C72) and the reader (C110).  Model: DeprModel.lean.
-/
import Verif.Dist.DeprModel
import Verif.Dist.LoadProps
import Verif.Dist.EvalProps
import Verif.General.RoundProps
import Verif.General.RoundEval
import Verif.General.SpecialProps
import Verif.Integrator.DenseRoundProps

namespace Softlib

open Softlib.Dist Softlib.General Softlib.Special

/-! ### One entry -/

/-- A bit above a power of two a number is not rounded down to it. -/
theorem fl_above_pow (p : ℕ) (hp : 1 ≤ p) (x : ℚ) (h : 1 / 2 ^ p * (1 + 1 / 2 / 2 ^ p) < x) : 1 / 2 ^ p < (rndBits p).fl x := by
  have h2 : (0 : ℚ) < 2 ^ p := by positivity
  have hnext : (rndBits p).fl (((2 ^ p + 1 : ℤ) : ℚ) * 2 ^ (-(2 * p : ℤ))) = ((2 ^ p + 1 : ℤ) : ℚ) * 2 ^ (-(2 * p : ℤ)) := by
    refine flBits_exact p ?_
    rw [abs_of_pos (by positivity), pow_succ]
    have : (1 : ℤ) ≤ 2 ^ p := one_le_pow₀ (by norm_num)
    omega
  have he : ((2 ^ p + 1 : ℤ) : ℚ) * 2 ^ (-(2 * p : ℤ)) = 1 / 2 ^ p * (1 + 1 / 2 ^ p) := by
    rw [zpow_neg, show (2 * (p : ℤ)) = ((2 * p : ℕ) : ℤ) by push_cast; ring, zpow_natCast, two_mul, pow_add]
    push_cast
    field_simp
  have hgt : (1 : ℚ) / 2 ^ p < 1 / 2 ^ p * (1 + 1 / 2 ^ p) := by
    have : (0 : ℚ) < 1 / 2 ^ p := by positivity
    nlinarith
  rcases le_total (1 / 2 ^ p * (1 + 1 / 2 ^ p)) x with hx | hx
  · have := (rndBits p).mono _ _ hx
    rw [← he, hnext, he] at this
    exact lt_of_lt_of_le hgt this
  · have hfl : flBits p x = ((2 ^ p + 1 : ℤ) : ℚ) * 2 ^ (-(2 * p : ℤ)) := by
      have e2 : (2 : ℚ) ^ (-(2 * p : ℤ)) = 1 / 2 ^ p * (1 / 2 ^ p) := by
        rw [zpow_neg, show (2 * (p : ℤ)) = ((2 * p : ℕ) : ℤ) by push_cast; ring, zpow_natCast, two_mul, pow_add]
        field_simp
      refine flBits_eq p (m := 2 ^ p + 1) ?_ ?_ ?_
      · rw [show (p : ℤ) + -(2 * p) = -(p : ℤ) by ring, zpow_neg, zpow_natCast, abs_of_pos]
        · rw [← one_div]
          have : (0 : ℚ) < 1 / 2 ^ p := by positivity
          have h3 : (0 : ℚ) < 1 / 2 / 2 ^ p := by positivity
          nlinarith
        · refine lt_trans ?_ h; positivity
      · rw [show (p : ℤ) + -(2 * p) + 1 = -(p : ℤ) + 1 by ring, zpow_add₀ (by norm_num), zpow_neg, zpow_natCast, abs_of_pos]
        · refine lt_of_le_of_lt hx ?_
          rw [← one_div, zpow_one]
          have hp1 : (1 : ℚ) / 2 ^ p ≤ 1 / 2 := by
            apply one_div_le_one_div_of_le (by norm_num)
            calc (2 : ℚ) = 2 ^ 1 := by norm_num
              _ ≤ 2 ^ p := pow_le_pow_right₀ (by norm_num) hp
          have : (0 : ℚ) < 1 / 2 ^ p := by positivity
          nlinarith
        · refine lt_trans ?_ h; positivity
      · rw [e2]
        have e3 : x / (1 / 2 ^ p * (1 / 2 ^ p)) = x * 2 ^ p * 2 ^ p := by field_simp
        rw [e3]
        have h4 : (2 : ℚ) ^ p + 1 / 2 < x * 2 ^ p * 2 ^ p := by
          have := mul_lt_mul_of_pos_right (mul_lt_mul_of_pos_right h h2) h2
          have e : 1 / 2 ^ p * (1 + 1 / 2 / 2 ^ p) * 2 ^ p * 2 ^ p = (2 : ℚ) ^ p + 1 / 2 := by field_simp
          rwa [e] at this
        have h5 : x * 2 ^ p * 2 ^ p ≤ (2 : ℚ) ^ p + 1 := by
          have := mul_le_mul_of_nonneg_right (mul_le_mul_of_nonneg_right hx h2.le) h2.le
          have e : 1 / 2 ^ p * (1 + 1 / 2 ^ p) * 2 ^ p * 2 ^ p = (2 : ℚ) ^ p + 1 := by field_simp
          rwa [e] at this
        push_cast
        rw [abs_lt]
        constructor <;> linarith
    show 1 / 2 ^ p < flBits p x
    rw [hfl, he]
    exact hgt

/-- A number of the format as an integer and a power of two. -/
theorem bits_form (p : ℕ) {a : ℚ} (ha : (rndBits p).Is a) : a = (rne (a / 2 ^ lastExp p a) : ℚ) * 2 ^ lastExp p a := ha.symm

/-- Half of a number of the format. -/
theorem bits_half (p : ℕ) {a : ℚ} (ha : (rndBits p).Is a) (h0 : a ≠ 0) : (rndBits p).Is (|a| / 2) := by
  have key : ∀ y : ℚ, 0 < y → (rndBits p).Is y → (rndBits p).Is (y / 2) := by
    intro y hy hi
    have hb := flBits_bounds p hy
    have hf := bits_form p hi
    have hm : |rne (y / 2 ^ lastExp p y)| ≤ 2 ^ (p + 1) := by
      have h1 : (0 : ℚ) ≤ (rne (y / 2 ^ lastExp p y) : ℚ) := by
        by_contra hc
        have := mul_neg_of_neg_of_pos (not_le.mp hc) (two_zpow_pos (lastExp p y))
        linarith
      have h2 : (rne (y / 2 ^ lastExp p y) : ℚ) ≤ 2 ^ ((p : ℤ) + 1) := by
        have := hb.2
        unfold flBits at this
        exact le_of_mul_le_mul_right this (two_zpow_pos _)
      rw [abs_of_nonneg (by exact_mod_cast h1)]
      rw [show ((p : ℤ) + 1) = ((p + 1 : ℕ) : ℤ) by push_cast; ring, zpow_natCast] at h2
      exact_mod_cast h2
    have e : y / 2 = (rne (y / 2 ^ lastExp p y) : ℚ) * 2 ^ (lastExp p y - 1) := by
      rw [zpow_sub₀ (by norm_num), zpow_one]
      nth_rewrite 1 [hf]
      ring
    rw [e]
    exact flBits_exact p hm
  have hneg : (rndBits p).Is |a| := by
    rcases abs_choice a with h | h
    · rw [h]; exact ha
    · rw [h]
      show flBits p (-a) = -a
      rw [flBits_neg]
      exact congrArg _ ha
  exact key _ (abs_pos.mpr h0) hneg

theorem fl_abs (p : ℕ) (x : ℚ) : |(rndBits p).fl x| = (rndBits p).fl |x| := by
  rcases le_total 0 x with h | h
  · rw [abs_of_nonneg h, abs_of_nonneg (Rnd.fl_nonneg _ h)]
  · rw [abs_of_nonpos h, abs_of_nonpos (Rnd.fl_nonpos _ h)]
    exact (flBits_neg p x).symm

/-- Numbers of the format that differ by at most half of the one: the difference is a multiple of half a last digit of that
one, and a number of the format. -/
theorem near_diff_pos (p : ℕ) {a b : ℚ} (ha : (rndBits p).Is a) (hb : (rndBits p).Is b) (h0 : 0 < a) (h : |a - b| ≤ a / 2) :
    (rndBits p).Is |a - b| ∧ ∃ J : ℤ, |a - b| = J * 2 ^ (lastExp p a - 1) := by
  have hab := abs_le.mp h
  have hb0 : 0 < b := by linarith [hab.1, hab.2]
  constructor
  · rcases le_total a b with hle | hle
    · rw [abs_sub_comm, abs_of_nonneg (by linarith)]
      exact isBits_sub p a b ha hb h0 hle (by linarith [hab.1])
    · rw [abs_of_nonneg (by linarith)]
      exact isBits_sub p b a hb ha hb0 hle (by linarith [hab.2])
  · have hexp : lastExp p a - 1 ≤ lastExp p b := by
      unfold lastExp
      rw [abs_of_pos h0, abs_of_pos hb0]
      have h1 := Int.zpow_log_le_self (b := 2) (by norm_num) h0
      have h2 : ((2 : ℕ) : ℚ) ^ (Int.log 2 a - 1) ≤ b := by
        rw [zpow_sub₀ (by norm_num), zpow_one]
        push_cast at h1 ⊢
        linarith [hab.2]
      have := (Int.zpow_le_iff_le_log (b := 2) (by norm_num) hb0).1 h2
      omega
    have ha' := bits_form p ha
    have hb' := bits_form p hb
    generalize rne (a / 2 ^ lastExp p a) = m at ha'
    generalize rne (b / 2 ^ lastExp p b) = n at hb'
    generalize lastExp p a = e at *
    generalize lastExp p b = f at *
    obtain ⟨d, rfl⟩ : ∃ d : ℕ, f = e - 1 + d := ⟨(f - (e - 1)).toNat, by omega⟩
    have hd : a - b = ((2 * m - n * 2 ^ d : ℤ) : ℚ) * 2 ^ (e - 1) := by
      have e1 : (2 : ℚ) ^ e = 2 * 2 ^ (e - 1) := by
        rw [zpow_sub₀ (by norm_num), zpow_one]; ring
      rw [hb', ha', zpow_add₀ (by norm_num), e1]
      push_cast
      rw [zpow_natCast]
      ring
    rcases abs_choice (a - b) with hc | hc
    · exact ⟨_, by rw [hc]; exact hd⟩
    · refine ⟨-(2 * m - n * 2 ^ d), ?_⟩
      rw [hc, hd]
      push_cast
      ring

theorem near_diff_form (p : ℕ) {a b : ℚ} (ha : (rndBits p).Is a) (hb : (rndBits p).Is b) (h0 : a ≠ 0) (h : |a - b| ≤ |a| / 2) :
    (rndBits p).Is |a - b| ∧ ∃ J : ℤ, |a - b| = J * 2 ^ (lastExp p a - 1) := by
  have hneg : ∀ x, (rndBits p).Is x → (rndBits p).Is (-x) := by
    intro x hx
    show flBits p (-x) = -x
    rw [flBits_neg]
    exact congrArg _ hx
  rcases lt_or_gt_of_ne h0 with hn | hp
  · have := near_diff_pos p (hneg a ha) (hneg b hb) (by linarith) (by
      rw [show -a - -b = -(a - b) by ring, abs_neg]
      rwa [abs_of_neg hn] at h)
    rw [show -a - -b = -(a - b) by ring, abs_neg, lastExp_neg] at this
    exact this
  · exact near_diff_pos p ha hb hp (by rwa [abs_of_pos hp] at h)

/-- The quotient of the difference and the number, if above the last digit of 1, is not rounded down to it. -/
theorem quot_above (p : ℕ) (hp : 1 ≤ p) {a D : ℚ} (ha : (rndBits p).Is a) (h0 : a ≠ 0) (J : ℤ) (hD : D = J * 2 ^ (lastExp p a - 1))
    (h : 1 / 2 ^ p < D / |a|) : 1 / 2 ^ p < (rndBits p).fl (D / |a|) := by
  refine fl_above_pow p hp _ ?_
  have hpos : 0 < |a| := abs_pos.mpr h0
  have hpow := two_zpow_pos (lastExp p a)
  -- the number in units of its last digit
  obtain ⟨M, hM, hM0, hMlt⟩ : ∃ M : ℤ, |a| = M * 2 ^ lastExp p a ∧ 0 < M ∧ M < 2 ^ (p + 1) := by
    have hf := bits_form p ha
    have hb := (pow_bounds p hpos).2
    have el : lastExp p |a| = lastExp p a := by unfold lastExp; rw [abs_abs]
    rw [el] at hb
    refine ⟨|rne (a / 2 ^ lastExp p a)|, ?_, ?_, ?_⟩
    · nth_rewrite 1 [hf]
      rw [abs_mul, abs_of_pos hpow]
      push_cast
      rfl
    · rw [abs_pos]
      intro hc
      rw [hc] at hf
      simp at hf
      exact h0 hf
    · have e : |a| = ((|rne (a / 2 ^ lastExp p a)| : ℤ) : ℚ) * 2 ^ lastExp p a := by
        nth_rewrite 1 [hf]
        rw [abs_mul, abs_of_pos hpow]
        push_cast
        rfl
      rw [e] at hb
      have := lt_of_mul_lt_mul_right hb hpow.le
      rw [show ((p : ℤ) + 1) = ((p + 1 : ℕ) : ℤ) by push_cast; ring, zpow_natCast] at this
      exact_mod_cast this
  have e1 : (2 : ℚ) ^ lastExp p a = 2 * 2 ^ (lastExp p a - 1) := by
    rw [zpow_sub₀ (by norm_num), zpow_one]; ring
  have hq : D / |a| = J / (2 * M) := by
    rw [hD, hM, e1]
    have := two_zpow_pos (lastExp p a - 1)
    field_simp
  have hMq : (0 : ℚ) < M := by exact_mod_cast hM0
  have h2 : (0 : ℚ) < 2 ^ p := by positivity
  obtain ⟨k, rfl⟩ : ∃ k, p = k + 1 := ⟨p - 1, by omega⟩
  rw [hq] at h ⊢
  have hi : M + 1 ≤ J * 2 ^ k := by
    have : (M : ℚ) < J * 2 ^ k := by
      rw [lt_div_iff₀ (by positivity), pow_succ] at h
      have h3 : (0 : ℚ) < 2 ^ k := by positivity
      rw [div_mul_eq_mul_div, one_mul, div_lt_iff₀ (by positivity)] at h
      linarith
    have : M < J * 2 ^ k := by exact_mod_cast this
    omega
  have hiq : (M : ℚ) + 1 ≤ J * 2 ^ k := by exact_mod_cast hi
  have hMu : (M : ℚ) < 2 ^ (k + 1) * 2 := by
    have : (M : ℚ) < 2 ^ (k + 1 + 1) := by exact_mod_cast hMlt
    rwa [pow_succ] at this
  rw [lt_div_iff₀ (by positivity)]
  have h3 : (0 : ℚ) < 2 ^ k := by positivity
  have e4 : 1 / (2 : ℚ) ^ (k + 1) * (1 + 1 / 2 / 2 ^ (k + 1)) * (2 * M) = (M + M / (2 ^ (k + 1) * 2)) / 2 ^ k := by
    rw [pow_succ]; field_simp
  rw [e4, div_lt_iff₀ h3]
  have : (M : ℚ) / (2 ^ (k + 1) * 2) < 1 := by rw [div_lt_one (by positivity)]; exact hMu
  linarith

/-- **C72** Rounding does not change the verdict: for numbers of a binary format (`p = 52`: double) and the tolerance `2^-p`
(`DBL_EPSILON`) an entry is accepted exactly if it agrees with the data. -/
theorem C72_rounded (p : ℕ) (hp : 2 ≤ p) (a b : ℚ) (ha : (rndBits p).Is a) (hb : (rndBits p).Is b) :
    verdictR (rndBits p) (1 / 2 ^ p) a b = true ↔ Matches (1 / 2 ^ p) a b := by
  unfold verdictR Matches
  by_cases h0 : a = 0
  · subst h0
    have e : |(rndBits p).fl (0 - b)| = |0 - b| := by
      rw [fl_abs]
      rcases abs_choice b with h | h
      · rw [zero_sub, abs_neg, h]; exact hb
      · rw [zero_sub, abs_neg, h]
        show flBits p (-b) = -b
        rw [flBits_neg]
        exact congrArg _ hb
    simp only [if_true, e, gt_iff_lt, Bool.not_eq_true', decide_eq_false_iff_not, not_lt]
  · have hpos : 0 < |a| := abs_pos.mpr h0
    simp only [if_neg h0, gt_iff_lt, Bool.not_eq_true', decide_eq_false_iff_not, not_lt]
    have hsmall : (1 : ℚ) / 2 ^ p < 1 / 2 := by
      apply one_div_lt_one_div_of_lt (by norm_num)
      calc (2 : ℚ) < 2 ^ 2 := by norm_num
        _ ≤ 2 ^ p := pow_le_pow_right₀ (by norm_num) hp
    rw [fl_abs]
    rcases le_or_gt |a - b| (|a| / 2) with hn | hf
    · obtain ⟨hi, J, hJ⟩ := near_diff_form p ha hb h0 hn
      rw [show (rndBits p).fl |a - b| = |a - b| from hi]
      constructor
      · intro h
        by_contra hc
        exact absurd h (not_le.mpr (quot_above p (by omega) ha h0 J hJ (not_le.mp hc)))
      · intro h
        refine Rnd.fl_le_of _ ?_ h
        have := flBits_exact p (e := -(p : ℤ)) (m := 1) (by
          have : (1 : ℤ) ≤ 2 ^ (p + 1) := one_le_pow₀ (by norm_num)
          simpa using this)
        rw [zpow_neg, zpow_natCast, ← one_div] at this
        simpa [Rnd.Is, rndBits] using this
    · have h1 : ¬ |a - b| / |a| ≤ 1 / 2 ^ p := by
        rw [not_le, lt_div_iff₀ hpos]
        nlinarith
      have h2 : ¬ (rndBits p).fl ((rndBits p).fl |a - b| / |a|) ≤ 1 / 2 ^ p := by
        have h3 : |a| / 2 ≤ (rndBits p).fl |a - b| := Rnd.le_fl_of _ (bits_half p ha h0) hf.le
        have h4 : 1 / 2 ≤ (rndBits p).fl |a - b| / |a| := by
          rw [le_div_iff₀ hpos]; linarith
        have hh : (rndBits p).Is (1 / 2) := by
          have := flBits_exact p (e := -1) (m := 1) (by
            have : (1 : ℤ) ≤ 2 ^ (p + 1) := one_le_pow₀ (by norm_num)
            simpa using this)
          simpa [Rnd.Is, rndBits] using this
        have h5 := Rnd.le_fl_of _ hh h4
        rw [not_le]
        linarith
      exact ⟨fun h => absurd h h2, fun h => absurd h h1⟩

/-- The premises are met, and both verdicts occur. -/
example : (rndBits 52).Is 3 ∧ (rndBits 52).Is (3 + 1 / 2 ^ 51) ∧ verdictR (rndBits 52) (1 / 2 ^ 52) 3 (3 + 1 / 2 ^ 51) = true ∧
    verdictR (rndBits 52) (1 / 2 ^ 52) 3 (3 + 1 / 2 ^ 50) = false := by
  unfold Rnd.Is; rw [rndQ_eq]; decide +kernel

/-- **C72** (refuted) With infinities and NaN: an entry is accepted exactly if it or the value is NaN, or it is infinite, or
both are finite and agree.  In particular NaN agrees with everything, and an infinite entry with every value. -/
theorem C72_refuted_special (eps : ℝ) (a b : EF) :
    verdictE eps a b = true ↔ a = .nan ∨ b = .nan ∨ a = .pinf ∨ a = .ninf ∨ ∃ x y, a = .fin x ∧ b = .fin y ∧ Matches eps x y := by
  have hdiv : ∀ (y : ℝ), EF.pinf / EF.fin |y| = .pinf := fun y => if_pos (abs_nonneg y)
  unfold verdictE
  cases a with
  | nan =>
    have h1 : EF.abs .nan = .nan := rfl
    simp [h1]
  | pinf =>
    have e : ¬ EF.eq .pinf (.fin 0) := id
    have h : ∀ x : EF, ¬ EF.lt (.fin eps) (x.abs / EF.abs .pinf) ∨ x.IsFin := by
      intro x
      cases x with
      | fin x => right; trivial
      | _ => left; exact id
    have h' : ¬ EF.lt (.fin eps) ((EF.pinf - b).abs / EF.abs .pinf) :=
      (h (EF.pinf - b)).resolve_right (EF.sub_left _ _ id)
    simp [e, h']
  | ninf =>
    have e : ¬ EF.eq .ninf (.fin 0) := id
    have h : ∀ x : EF, ¬ EF.lt (.fin eps) (x.abs / EF.abs .ninf) ∨ x.IsFin := by
      intro x
      cases x with
      | fin x => right; trivial
      | _ => left; exact id
    have h' : ¬ EF.lt (.fin eps) ((EF.ninf - b).abs / EF.abs .ninf) :=
      (h (EF.ninf - b)).resolve_right (EF.sub_left _ _ id)
    simp [e, h']
  | fin x =>
    cases b with
    | nan =>
      have h1 : EF.abs .nan = .nan := rfl
      simp [h1]
    | pinf =>
      have h1 : (EF.fin x - EF.pinf).abs = .pinf := rfl
      have h2 : EF.lt (.fin eps) .pinf := trivial
      have h3 : (EF.fin x).abs = .fin |x| := rfl
      simp [h1, h2, h3, hdiv]
    | ninf =>
      have h1 : (EF.fin x - EF.ninf).abs = .pinf := rfl
      have h2 : EF.lt (.fin eps) .pinf := trivial
      have h3 : (EF.fin x).abs = .fin |x| := rfl
      simp [h1, h2, h3, hdiv]
    | fin y =>
      have h1 : ∀ z : ℝ, (EF.fin z).abs = .fin |z| := fun _ => rfl
      by_cases h0 : x = 0
      · subst h0
        simp [h1, Matches]
      · have h4 : EF.fin |x - y| / EF.fin |x| = .fin (|x - y| / |x|) := EF.fin_div _ _ (abs_ne_zero.mpr h0)
        simp [h0, h1, h4, Matches]

/-! ### The whole vector -/

section Vector

variable {α : Type}

/-- A matrix used as a vector of length `n`. -/
def IsVecOf (m : Mat α) (n : ℕ) : Prop := (m.rows = 1 ∧ m.cols = n) ∨ (m.cols = 1 ∧ m.rows = n)

/-- All numbers of the matrix are there. -/
def Full (m : Mat α) : Prop := m.data.length = m.rows * m.cols

theorem IsVecOf.length {m : Mat α} {n : ℕ} (h : IsVecOf m n) (hf : Full m) : m.data.length = n := by
  unfold Full at hf
  rcases h with ⟨h1, h2⟩ | ⟨h1, h2⟩ <;> rw [hf, h1, h2] <;> simp

theorem verifyWith_spec (good : α → α → Bool) (v : List α) (step : ℕ) : ∀ (l : List α) (i : ℕ),
    (∀ k, k < l.length → (i + k) * step < v.length) →
    ∃ b, verifyWith good v step i l = some b ∧
      (b = true ↔ ∀ k a x, l[k]? = some a → v[(i + k) * step]? = some x → good a x = true)
  | [], i, _ => ⟨true, rfl, by simp⟩
  | a :: l, i, hb => by
    have h0 : i * step < v.length := by simpa using hb 0 (by simp)
    have shift : ∀ k, i + (k + 1) = i + 1 + k := fun k => by omega
    obtain ⟨b, e, hbt⟩ := verifyWith_spec good v step l (i + 1) (fun k hk => by
      have := hb (k + 1) (by simp; omega)
      rwa [shift] at this)
    simp only [verifyWith, List.getElem?_eq_getElem h0]
    by_cases hg : good a v[i * step] = true
    · rw [if_pos hg]
      refine ⟨b, e, hbt.trans ?_⟩
      constructor
      · intro h k a' x ha' hx
        cases k with
        | zero =>
          simp only [List.getElem?_cons_zero, Option.some.injEq] at ha'
          simp only [Nat.add_zero, List.getElem?_eq_getElem h0, Option.some.injEq] at hx
          rw [← ha', ← hx]
          exact hg
        | succ k => exact h k a' x (by simpa using ha') (by rwa [← shift])
      · intro h k a' x ha' hx
        exact h (k + 1) a' x (by simpa using ha') (by rwa [shift])
    · rw [if_neg hg]
      refine ⟨false, rfl, ⟨fun h => (by cases h), fun h => ?_⟩⟩
      exact absurd (h 0 a v[i * step] rfl (by simp [List.getElem?_eq_getElem h0])) hg

/-- **C72** A row or a column of at most `n` entries is accepted exactly if every entry passes the comparison with its value,
and only the data are read, if these hold `n * step` values. -/
theorem C72_vector (good : α → α → Bool) (v : List α) (n step l : ℕ) (m : Mat α) (hm : IsVecOf m l) (hf : Full m) (hl : l ≤ n)
    (hv : n * step ≤ v.length) (hs : 0 < step) :
    ∃ b, verifyMat good v n step (some m) = .ok b ∧
      (b = true ↔ ∀ k a x, m.data[k]? = some a → v[k * step]? = some x → good a x = true) := by
  obtain ⟨b, e, hb⟩ := verifyWith_spec good v step m.data 0 (fun k hk => by
    rw [Nat.zero_add]
    rw [hm.length hf] at hk
    refine lt_of_lt_of_le ?_ hv
    exact Nat.mul_lt_mul_of_pos_right (by omega) hs)
  refine ⟨b, ?_, by simpa using hb⟩
  unfold verifyMat
  simp only [e]
  rcases hm with ⟨h1, h2⟩ | ⟨h1, h2⟩
  · rw [if_pos ⟨h1, by omega⟩]
  · split_ifs with h3 h4
    · rfl
    · rfl
    · exact absurd ⟨h1, by omega⟩ h4

/-- **C72** Any other shape, and more entries than data points, is an error; an absent vector is accepted. -/
theorem C72_vector_shape (good : α → α → Bool) (v : List α) (n step : ℕ) (m : Mat α) (h : ¬ ∃ l, IsVecOf m l ∧ l ≤ n) :
    verifyMat good v n step (some m) = .throws ∧ verifyMat good v n step none = .ok true := by
  constructor
  · show (if _ then _ else _) = _
    rw [if_neg, if_neg]
    · exact fun hc => h ⟨m.rows, Or.inr ⟨hc.1, rfl⟩, hc.2⟩
    · exact fun hc => h ⟨m.cols, Or.inl ⟨hc.1, rfl⟩, hc.2⟩
  · rfl

end Vector

example : verifyMat (verdictR (rndBits 52) (1 / 2 ^ 52)) [1, 2, 3, 4] 2 2 (some ⟨2, 1, [1, 3]⟩) = .ok true ∧
    verifyMat (verdictR (rndBits 52) (1 / 2 ^ 52)) [1, 2, 3, 4] 2 2 (some ⟨2, 1, [1, 4]⟩) = .ok false ∧
    verifyMat (verdictR (rndBits 52) (1 / 2 ^ 52)) [1, 2, 3, 4] 2 2 (some ⟨2, 2, [1, 2, 3, 4]⟩) = .throws := by
  rw [rndQ_eq]; decide +kernel

/-! ### The reader -/

/-- The documented sizes of `f`: a row of `np * nxi` for each radius, or everything in a row or a column. -/
def FSize (m : Mat ℚ) (nr np nxi : ℕ) : Prop :=
  (m.rows = nr ∧ m.cols = np * nxi) ∨ (m.rows = 1 ∧ m.cols = nr * np * nxi) ∨ (m.cols = 1 ∧ m.rows = nr * np * nxi)

/-- A verification vector is absent, or a vector of at most `n` entries that agree with every `step`-th value. -/
def Verified (eps : ℚ) (v : List ℚ) (n step : ℕ) (f0 : Option (Mat ℚ)) : Prop :=
  ∀ m, f0 = some m → (∃ l, IsVecOf m l ∧ l ≤ n) ∧
    ∀ k a x, m.data[k]? = some a → v[k * step]? = some x → Matches eps a x

/-- The units and their factors: the mass of the electron in eV; 1; the mass in kg times the speed of light in m/s. -/
def UnitIs {u : ℚ} (R : Rnd u) (s : String) (c : ℚ) : Prop :=
  (s = "ev" ∧ c = R.fl (5109989461 / 10000)) ∨ (s = "normalized" ∧ c = 1) ∨
    (s = "si" ∧ c = R.fl (R.fl (910938356 / 10 ^ 39) * R.fl 299792458))

/-- The matrices of a file are complete, and their numbers are numbers of the format. -/
structure GoodFile (p : ℕ) (F : DeprFile) : Prop where
  full : ∀ m, F.r = some m ∨ F.p = some m ∨ F.xi = some m ∨ F.f = some m ∨ F.fp0 = some m ∨ F.fxi0 = some m ∨ F.fr0 = some m → Full m
  bits : ∀ m, F.p = some m ∨ F.f = some m ∨ F.fp0 = some m ∨ F.fxi0 = some m ∨ F.fr0 = some m → ∀ x ∈ m.data, (rndBits p).Is x

/-- The grids are not empty, and the number of values fits into 32 bits. -/
def Fits32 (F : DeprFile) : Prop :=
  ∀ r p xi nr np nxi, F.r = some r → F.p = some p → F.xi = some xi → IsVecOf r nr → IsVecOf p np → IsVecOf xi nxi →
    0 < nr ∧ 0 < np ∧ 0 < nxi ∧ nr * np * nxi < 4294967296

theorem vecLen_isVec {α : Type} (m : Mat α) (n : ℕ) : m.vecLen = some n ↔ IsVecOf m n := by
  unfold Mat.vecLen IsVecOf
  by_cases h1 : m.rows = 1
  · rw [if_pos h1]
    constructor
    · intro h; left; exact ⟨h1, by simpa using h⟩
    · rintro (h | h)
      · rw [h.2]
      · rw [h.1, ← h.2, h1]
  · rw [if_neg h1]
    by_cases h2 : m.cols = 1
    · rw [if_pos h2]
      constructor
      · intro h; right; exact ⟨h2, by simpa using h⟩
      · rintro (h | h)
        · exact absurd h.1 h1
        · rw [h.2]
    · rw [if_neg h2]
      constructor
      · intro h; cases h
      · rintro (h | h)
        · exact absurd h.1 h1
        · exact absurd h.1 h2

theorem toU32_of_lt {n : ℕ} (h : n < 4294967296) : toU32 n = n := Nat.mod_eq_of_lt h

theorem readVec_spec (m : Option (Mat ℚ)) :
    (readVec m = .throws ∧ ¬ ∃ x n, m = some x ∧ IsVecOf x n) ∨
      ∃ x n, m = some x ∧ IsVecOf x n ∧ readVec m = .ok (toU32 n, x.data) := by
  unfold readVec
  cases m with
  | none => left; simp
  | some m =>
    cases h : m.vecLen with
    | none =>
      left
      simp only [h, true_and]
      rintro ⟨x, n, hx, hn⟩
      injection hx with hx
      subst hx
      rw [(vecLen_isVec m n).mpr hn] at h
      cases h
    | some n =>
      right
      simp only [h]
      exact ⟨m, n, rfl, (vecLen_isVec m n).mp h, rfl⟩

open Classical in
theorem mustVerify_eq (p : ℕ) (hp : 2 ≤ p) (v : List ℚ) (n step : ℕ) (f0 : Option (Mat ℚ)) (hf : ∀ m, f0 = some m → Full m)
    (hb : ∀ m, f0 = some m → ∀ x ∈ m.data, (rndBits p).Is x) (hbv : ∀ x ∈ v, (rndBits p).Is x) (hv : n * step ≤ v.length)
    (hs : 0 < step) :
    mustVerify (verifyMat (verdictR (rndBits p) (1 / 2 ^ p)) v n step f0) =
      if Verified (1 / 2 ^ p) v n step f0 then .ok () else .throws := by
  cases f0 with
  | none =>
    rw [if_pos (by intro m h; cases h)]
    rfl
  | some m =>
    by_cases hsh : ∃ l, IsVecOf m l ∧ l ≤ n
    · obtain ⟨l, hl, hln⟩ := hsh
      obtain ⟨b, e, hbt⟩ := C72_vector (verdictR (rndBits p) (1 / 2 ^ p)) v n step l m hl (hf m rfl) hln hv hs
      have hiff : b = true ↔ Verified (1 / 2 ^ p) v n step (some m) := by
        rw [hbt]
        constructor
        · rintro h _ ⟨⟩
          refine ⟨⟨l, hl, hln⟩, fun k a x ha hx => ?_⟩
          exact (C72_rounded p hp a x (hb m rfl a (List.mem_of_getElem? ha)) (hbv x (List.mem_of_getElem? hx))).mp (h k a x ha hx)
        · intro h k a x ha hx
          exact (C72_rounded p hp a x (hb m rfl a (List.mem_of_getElem? ha)) (hbv x (List.mem_of_getElem? hx))).mpr
            ((h m rfl).2 k a x ha hx)
      rw [e]
      cases b with
      | true => rw [if_pos (hiff.mp rfl)]; rfl
      | false =>
        rw [if_neg (fun h => by cases hiff.mpr h)]; rfl
    · rw [(C72_vector_shape _ v n step m hsh).1, if_neg (fun h => hsh (h m rfl).1)]
      rfl

theorem unitFactor_iff {u : ℚ} (R : Rnd u) (s : String) (c : ℚ) : unitFactor R s = some c ↔ UnitIs R s c := by
  unfold unitFactor UnitIs massEV massKg lightspeed
  by_cases h1 : s = "ev"
  · subst h1; simp [eq_comm]
  · by_cases h2 : s = "normalized"
    · subst h2; simp [eq_comm]
    · by_cases h3 : s = "si"
      · subst h3; simp [eq_comm]
      · simp [h1, h2, h3]

theorem fShape_iff (m : Mat ℚ) (nr np nxi : ℕ) (h0 : 0 < nr) (h : nr * np * nxi < 4294967296) :
    fShape m nr np nxi = true ↔ FSize m nr np nxi := by
  have h1 : np * nxi < 4294967296 := by
    refine lt_of_le_of_lt ?_ h
    rw [Nat.mul_assoc]
    exact Nat.le_mul_of_pos_left _ h0
  have h2 : np * nxi * nr = nr * np * nxi := by ring
  unfold fShape FSize
  rw [toU32_of_lt h1, h2, toU32_of_lt h, decide_eq_true_eq]

theorem FSize.full {m : Mat ℚ} {nr np nxi : ℕ} (h : FSize m nr np nxi) (hf : Full m) : m.data.length = nr * np * nxi := by
  unfold Full at hf
  rw [hf]
  rcases h with ⟨h1, h2⟩ | ⟨h1, h2⟩ | ⟨h1, h2⟩ <;> rw [h1, h2] <;> ring

theorem scaleP_eq (p : ℕ) (c : ℚ) (l : List ℚ) (hb : ∀ x ∈ l, (rndBits p).Is x) :
    scaleP (rndBits p) c l.length l = .ok (l.map fun x => (rndBits p).fl (x / c)) := by
  unfold scaleP
  by_cases h : c = 1
  · rw [if_pos h, h]
    congr 1
    symm
    calc _ = l.map id := by
          apply List.map_congr_left
          intro x hx
          rw [div_one]
          exact hb x hx
      _ = l := List.map_id l
  · rw [if_neg h, if_neg (lt_irrefl _)]
    simp

/-- The file has everything that is needed, in the documented sizes, passes the verifications, and `d` is its contents with the
momenta divided by the factor of their unit. -/
def Loads (p : ℕ) (F : DeprFile) (d : DeprData) : Prop :=
  ∃ r pm xi f s c, F.r = some r ∧ F.p = some pm ∧ F.xi = some xi ∧ F.f = some f ∧ F.punits = some s ∧
    IsVecOf r d.nr ∧ IsVecOf pm d.np ∧ IsVecOf xi d.nxi ∧ FSize f d.nr d.np d.nxi ∧
    Verified (1 / 2 ^ p) f.data d.np 1 F.fp0 ∧ Verified (1 / 2 ^ p) f.data d.nxi d.np F.fxi0 ∧
    Verified (1 / 2 ^ p) f.data d.nr (d.np * d.nxi) F.fr0 ∧ UnitIs (rndBits p) s c ∧
    d.r = r.data ∧ d.p = pm.data.map (fun x => (rndBits p).fl (x / c)) ∧ d.xi = xi.data ∧ d.f = f.data

theorem IsVecOf.unique {α : Type} {m : Mat α} {a b : ℕ} (ha : IsVecOf m a) (hb : IsVecOf m b) : a = b := by
  have h1 := (vecLen_isVec m a).mpr ha
  rw [(vecLen_isVec m b).mpr hb] at h1
  exact (Option.some.inj h1).symm

theorem deprLoad_cases (p : ℕ) (hp : 2 ≤ p) (F : DeprFile) (hg : GoodFile p F) (hF : Fits32 F) :
    (deprLoad (rndBits p) (1 / 2 ^ p) F = .throws ∧ ∀ d, ¬ Loads p F d) ∨
      ∃ d, deprLoad (rndBits p) (1 / 2 ^ p) F = .ok d ∧ ∀ d', Loads p F d' ↔ d' = d := by
  unfold deprLoad
  rcases readVec_spec F.r with ⟨er, hr⟩ | ⟨r, nr, er', hr, er⟩
  · left
    rw [er]
    refine ⟨rfl, ?_⟩
    rintro d ⟨r, pm, xi, f, s, c, h1, h2, h3, h4, h5, h6, -⟩
    exact hr ⟨r, _, h1, h6⟩
  rw [er]
  simp only [LRes.andThen]
  rcases readVec_spec F.p with ⟨ep, hpm⟩ | ⟨pm, np, ep', hpm, ep⟩
  · left
    rw [ep]
    refine ⟨rfl, ?_⟩
    rintro d ⟨r, pm, xi, f, s, c, h1, h2, h3, h4, h5, h6, h7, -⟩
    exact hpm ⟨pm, _, h2, h7⟩
  rw [ep]
  simp only
  rcases readVec_spec F.xi with ⟨ex, hxi⟩ | ⟨xi, nxi, ex', hxi, ex⟩
  · left
    rw [ex]
    refine ⟨rfl, ?_⟩
    rintro d ⟨r, pm, xi, f, s, c, h1, h2, h3, h4, h5, h6, h7, h8, -⟩
    exact hxi ⟨xi, _, h3, h8⟩
  rw [ex]
  simp only
  obtain ⟨hr0, hp0, hx0, hlt⟩ := hF r pm xi nr np nxi er' ep' ex' hr hpm hxi
  have hpx : np * nxi < 4294967296 := by
    refine lt_of_le_of_lt ?_ hlt
    rw [Nat.mul_assoc]
    exact Nat.le_mul_of_pos_left _ hr0
  have hpx0 : 0 < np * nxi := Nat.mul_pos hp0 hx0
  have hnr : nr < 4294967296 := by
    refine lt_of_le_of_lt ?_ hlt
    rw [Nat.mul_assoc]
    exact Nat.le_mul_of_pos_right _ hpx0
  have hnp : np < 4294967296 := lt_of_le_of_lt (Nat.le_mul_of_pos_right _ hx0) hpx
  have hnx : nxi < 4294967296 := lt_of_le_of_lt (Nat.le_mul_of_pos_left _ hp0) hpx
  rw [toU32_of_lt hnr, toU32_of_lt hnp, toU32_of_lt hnx, toU32_of_lt hpx]
  -- what a loadable file determines
  have det : ∀ d, Loads p F d → d.nr = nr ∧ d.np = np ∧ d.nxi = nxi := by
    rintro d ⟨r', pm', xi', f, s, c, h1, h2, h3, h4, h5, h6, h7, h8, -⟩
    rw [er'] at h1
    rw [ep'] at h2
    rw [ex'] at h3
    injection h1 with h1
    injection h2 with h2
    injection h3 with h3
    subst h1 h2 h3
    exact ⟨h6.unique hr, h7.unique hpm, h8.unique hxi⟩
  cases ef : F.f with
  | none =>
    left
    refine ⟨rfl, ?_⟩
    rintro d ⟨r, pm, xi, f, s, c, h1, h2, h3, h4, -⟩
    rw [ef] at h4
    cases h4
  | some f =>
    simp only
    by_cases hsh : fShape f nr np nxi = true
    · rw [if_neg (by rw [hsh]; decide)]
      have hsz := (fShape_iff f nr np nxi hr0 hlt).mp hsh
      have hlen := hsz.full (hg.full f (by simp [ef]))
      have hbv := hg.bits f (by simp [ef])
      have b1 : np * 1 ≤ f.data.length := by
        rw [hlen, Nat.mul_one]
        calc np ≤ nr * np := Nat.le_mul_of_pos_left _ hr0
          _ ≤ nr * np * nxi := Nat.le_mul_of_pos_right _ hx0
      have b2 : nxi * np ≤ f.data.length := by
        rw [hlen, Nat.mul_comm nxi, Nat.mul_assoc]
        exact Nat.le_mul_of_pos_left _ hr0
      have b3 : nr * (np * nxi) ≤ f.data.length := by rw [hlen, Nat.mul_assoc]
      rw [mustVerify_eq p hp f.data np 1 F.fp0 (fun m h => hg.full m (by simp [h])) (fun m h => hg.bits m (by simp [h])) hbv b1 Nat.one_pos,
        mustVerify_eq p hp f.data nxi np F.fxi0 (fun m h => hg.full m (by simp [h])) (fun m h => hg.bits m (by simp [h])) hbv b2 hp0,
        mustVerify_eq p hp f.data nr (np * nxi) F.fr0 (fun m h => hg.full m (by simp [h])) (fun m h => hg.bits m (by simp [h])) hbv b3 hpx0]
      have fdet : ∀ d, Loads p F d → Verified (1 / 2 ^ p) f.data np 1 F.fp0 ∧ Verified (1 / 2 ^ p) f.data nxi np F.fxi0 ∧
          Verified (1 / 2 ^ p) f.data nr (np * nxi) F.fr0 := by
        intro d hd
        obtain ⟨e1, e2, e3⟩ := det d hd
        obtain ⟨r', pm', xi', f', s, c, h1, h2, h3, h4, h5, h6, h7, h8, h9, h10, h11, h12, -⟩ := hd
        rw [ef] at h4
        injection h4 with h4
        subst h4
        rw [e2] at h10
        rw [e2, e3] at h11
        rw [e1, e2, e3] at h12
        exact ⟨h10, h11, h12⟩
      by_cases v1 : Verified (1 / 2 ^ p) f.data np 1 F.fp0
      · rw [if_pos v1]
        simp only
        by_cases v2 : Verified (1 / 2 ^ p) f.data nxi np F.fxi0
        · rw [if_pos v2]
          simp only
          by_cases v3 : Verified (1 / 2 ^ p) f.data nr (np * nxi) F.fr0
          · rw [if_pos v3]
            simp only
            cases es : F.punits with
            | none =>
              left
              refine ⟨rfl, ?_⟩
              rintro d ⟨r, pm, xi, f, s, c, h1, h2, h3, h4, h5, -⟩
              rw [es] at h5
              cases h5
            | some s =>
              simp only
              cases eu : unitFactor (rndBits p) s with
              | none =>
                left
                refine ⟨rfl, ?_⟩
                rintro d ⟨r, pm, xi, f, s', c, h1, h2, h3, h4, h5, h6, h7, h8, h9, h10, h11, h12, h13, -⟩
                rw [es] at h5
                injection h5 with h5
                subst h5
                rw [(unitFactor_iff _ _ _).mpr h13] at eu
                cases eu
              | some c =>
                right
                simp only
                have hplen := hpm.length (hg.full pm (by simp [ep']))
                have hs := scaleP_eq p c pm.data (hg.bits pm (by simp [ep']))
                rw [hplen] at hs
                rw [hs]
                refine ⟨_, rfl, fun d' => ⟨?_, ?_⟩⟩
                · intro hd
                  obtain ⟨e1, e2, e3⟩ := det d' hd
                  obtain ⟨r', pm', xi', f', s', c', h1, h2, h3, h4, h5, h6, h7, h8, h9, h10, h11, h12, h13, h14, h15, h16, h17⟩ := hd
                  rw [er'] at h1
                  rw [ep'] at h2
                  rw [ex'] at h3
                  rw [ef] at h4
                  rw [es] at h5
                  injection h1 with h1
                  injection h2 with h2
                  injection h3 with h3
                  injection h4 with h4
                  injection h5 with h5
                  subst h1 h2 h3 h4 h5
                  have hc := (unitFactor_iff _ _ _).mpr h13
                  rw [eu] at hc
                  injection hc with hc
                  subst hc
                  obtain ⟨a1, a2, a3, a4, a5, a6, a7⟩ := d'
                  simp only at e1 e2 e3 h14 h15 h16 h17
                  subst e1 e2 e3 h14 h15 h16 h17
                  rfl
                · rintro rfl
                  exact ⟨r, pm, xi, f, s, c, er', ep', ex', ef, es, hr, hpm, hxi, hsz, v1, v2, v3,
                    (unitFactor_iff _ _ _).mp eu, rfl, rfl, rfl, rfl⟩
          · rw [if_neg v3]
            exact Or.inl ⟨rfl, fun d hd => v3 (fdet d hd).2.2⟩
        · rw [if_neg v2]
          exact Or.inl ⟨rfl, fun d hd => v2 (fdet d hd).2.1⟩
      · rw [if_neg v1]
        exact Or.inl ⟨rfl, fun d hd => v1 (fdet d hd).1⟩
    · rw [if_pos (by simpa using hsh)]
      refine Or.inl ⟨rfl, fun d hd => hsh ?_⟩
      obtain ⟨e1, e2, e3⟩ := det d hd
      obtain ⟨r', pm', xi', f', s, c, h1, h2, h3, h4, h5, h6, h7, h8, h9, -⟩ := hd
      rw [ef] at h4
      injection h4 with h4
      subst h4
      rw [e1, e2, e3] at h9
      exact (fShape_iff f nr np nxi hr0 hlt).mpr h9

/-- **C110** A file whose grids are not empty and whose number of values fits into 32 bits is loaded exactly if it has
everything in the documented sizes and passes the verifications; the result is its contents, with the momenta divided by the
factor of their unit.  (Binary arithmetic with `p + 1` digits and the tolerance `2^-p`; `p = 52` for `double`.) -/
theorem C110_load_partial (p : ℕ) (hp : 2 ≤ p) (F : DeprFile) (hg : GoodFile p F) (hF : Fits32 F) (d : DeprData) :
    deprLoad (rndBits p) (1 / 2 ^ p) F = .ok d ↔ Loads p F d := by
  rcases deprLoad_cases p hp F hg hF with ⟨e, h⟩ | ⟨d', e, h⟩
  · rw [e]
    exact ⟨fun h' => (by cases h'), fun h' => absurd h' (h d)⟩
  · rw [e, h d]
    constructor
    · intro h'; injection h' with h'; exact h'.symm
    · intro h'; rw [h']

/-- **C110** Such files are read without undefined behaviour; one that is not loaded is rejected with an exception. -/
theorem C110_safe_partial (p : ℕ) (hp : 2 ≤ p) (F : DeprFile) (hg : GoodFile p F) (hF : Fits32 F) :
    deprLoad (rndBits p) (1 / 2 ^ p) F ≠ .ub ∧
      (deprLoad (rndBits p) (1 / 2 ^ p) F = .throws ↔ ¬ ∃ d, Loads p F d) := by
  rcases deprLoad_cases p hp F hg hF with ⟨e, h⟩ | ⟨d', e, h⟩
  · rw [e]
    exact ⟨(by intro h'; cases h'), by simpa using h⟩
  · rw [e]
    refine ⟨(by intro h'; cases h'), fun h' => (by cases h'), fun h' => absurd ⟨d', (h d').mpr rfl⟩ h'⟩

/-- Grids that are not empty, at most `2^32 - 1` values, arrays of the right lengths. -/
structure SizedData (d : DeprData) : Prop where
  nr : 0 < d.nr
  np : 0 < d.np
  nxi : 0 < d.nxi
  fits : d.nr * d.np * d.nxi < 4294967296
  r : d.r.length = d.nr
  p : d.p.length = d.np
  xi : d.xi.length = d.nxi
  f : d.f.length = d.nr * d.np * d.nxi

/-- What the sizes of a loaded file satisfy. -/
theorem Loads.sizes {p : ℕ} {F : DeprFile} {d : DeprData} (h : Loads p F d) (hg : GoodFile p F) (hF : Fits32 F) : SizedData d := by
  obtain ⟨r, pm, xi, f, s, c, h1, h2, h3, h4, h5, h6, h7, h8, h9, h10, h11, h12, h13, h14, h15, h16, h17⟩ := h
  obtain ⟨a1, a2, a3, a4⟩ := hF r pm xi _ _ _ h1 h2 h3 h6 h7 h8
  refine ⟨a1, a2, a3, a4, ?_, ?_, ?_, ?_⟩
  · rw [h14]; exact h6.length (hg.full r (by simp [h1]))
  · rw [h15, List.length_map]; exact h7.length (hg.full pm (by simp [h2]))
  · rw [h16]; exact h8.length (hg.full xi (by simp [h3]))
  · rw [h17]; exact h9.full (hg.full f (by simp [h4]))

theorem SizedData.slice_le {d : DeprData} (_ : SizedData d) {i : ℕ} (hi : i < d.nr) :
    i * (d.np * d.nxi) + d.np * d.nxi ≤ d.nr * d.np * d.nxi := by
  calc i * (d.np * d.nxi) + d.np * d.nxi = (i + 1) * (d.np * d.nxi) := by ring
    _ ≤ d.nr * (d.np * d.nxi) := Nat.mul_le_mul_right _ hi
    _ = d.nr * d.np * d.nxi := by ring

theorem slice_eq {d : DeprData} (h : SizedData d) {i : ℕ} (hi : i < d.nr) :
    d.slice i = some ((d.f.drop (i * (d.np * d.nxi))).take (d.np * d.nxi)) := by
  have hle := h.slice_le hi
  have hfits := h.fits
  unfold DeprData.slice
  have e1 : toU32 (d.np * d.nxi) = d.np * d.nxi := toU32_of_lt (by omega)
  have e2 : toU32 (i * (d.np * d.nxi)) = i * (d.np * d.nxi) := toU32_of_lt (by omega)
  simp only [e1, e2]
  rw [if_neg (by rw [h.f]; omega)]

theorem slices_eq {d : DeprData} (h : SizedData d) :
    d.slices = some ((List.range d.nr).map fun i => (d.f.drop (i * (d.np * d.nxi))).take (d.np * d.nxi)) := by
  have hall : ∀ l : List ℕ, (∀ i ∈ l, i < d.nr) →
      l.mapM d.slice = some (l.map fun i => (d.f.drop (i * (d.np * d.nxi))).take (d.np * d.nxi)) := by
    intro l
    induction l with
    | nil => intro _; rfl
    | cons a l ih =>
      intro hl
      rw [List.mapM_cons, slice_eq h (hl a (by simp)), ih (fun i hi => hl i (by simp [hi]))]
      rfl
  exact hall _ (fun i hi => List.mem_range.mp hi)

/-- The values of one radius: `nxi` rows of `np` values. -/
def IsSlice (d : DeprData) (i : ℕ) (s : List ℚ) : Prop :=
  s.length = d.nxi * d.np ∧ ∀ j < d.nxi, ∀ k < d.np, s[j * d.np + k]? = d.f[(i * d.nxi + j) * d.np + k]?

theorem isSlice_iff {d : DeprData} (h : SizedData d) {i : ℕ} (hi : i < d.nr) (s : List ℚ) :
    IsSlice d i s ↔ (d.f.drop (i * (d.np * d.nxi))).take (d.np * d.nxi) = s := by
  have hle := h.slice_le hi
  have h2 := h.np
  have hlen : ((d.f.drop (i * (d.np * d.nxi))).take (d.np * d.nxi)).length = d.nxi * d.np := by
    rw [List.length_take, List.length_drop, h.f, Nat.mul_comm d.nxi]
    omega
  have hget : ∀ j < d.nxi, ∀ k < d.np,
      ((d.f.drop (i * (d.np * d.nxi))).take (d.np * d.nxi))[j * d.np + k]? = d.f[(i * d.nxi + j) * d.np + k]? := by
    intro j hj k hk
    have hlt : j * d.np + k < d.np * d.nxi := by
      calc j * d.np + k < (j + 1) * d.np := by rw [Nat.succ_mul]; omega
        _ ≤ d.nxi * d.np := Nat.mul_le_mul_right _ hj
        _ = d.np * d.nxi := Nat.mul_comm _ _
    rw [List.getElem?_take_of_lt hlt, List.getElem?_drop]
    congr 1
    ring
  constructor
  · rintro ⟨hl, hv⟩
    apply List.ext_getElem?
    intro n
    by_cases hn : n < d.nxi * d.np
    · have hj : n / d.np < d.nxi := Nat.div_lt_of_lt_mul (by rwa [Nat.mul_comm])
      have hk : n % d.np < d.np := Nat.mod_lt _ h2
      have en : n = n / d.np * d.np + n % d.np := by rw [Nat.mul_comm]; exact (Nat.div_add_mod n d.np).symm
      rw [en, hget _ hj _ hk, hv _ hj _ hk]
    · rw [List.getElem?_eq_none (by omega), List.getElem?_eq_none (by omega)]
  · rintro rfl
    exact ⟨hlen, hget⟩

/-- **C110** The momentum distribution taken from such a file: exactly for a radius of the file, and the values are those of
that radius, in the order of the file. -/
theorem C110_momentum_partial (p : ℕ) (hp : 2 ≤ p) (F : DeprFile) (hg : GoodFile p F) (hF : Fits32 F) (i : ℕ) (s : List ℚ) :
    deprMomentum (rndBits p) (1 / 2 ^ p) F i = .ok s ↔ ∃ d, Loads p F d ∧ i < d.nr ∧ IsSlice d i s := by
  unfold deprMomentum
  constructor
  · intro h
    cases e : deprLoad (rndBits p) (1 / 2 ^ p) F with
    | ub => rw [e] at h; cases h
    | throws => rw [e] at h; cases h
    | ok d =>
      have hd := (C110_load_partial p hp F hg hF d).mp e
      rw [e] at h
      simp only [LRes.andThen] at h
      by_cases hi : i ≥ d.nr
      · rw [if_pos hi] at h; cases h
      · rw [if_neg hi, slice_eq (hd.sizes hg hF) (by omega)] at h
        injection h with h
        exact ⟨d, hd, by omega, (isSlice_iff (hd.sizes hg hF) (by omega) s).mpr h⟩
  · rintro ⟨d, hd, hi, hs⟩
    rw [(C110_load_partial p hp F hg hF d).mpr hd]
    simp only [LRes.andThen]
    rw [if_neg (by omega), slice_eq (hd.sizes hg hF) hi]
    simp only
    rw [(isSlice_iff (hd.sizes hg hF) hi s).mp hs]

theorem monotoneFrom_inc : ∀ (l : List ℚ) (a : ℚ), (a :: l).Pairwise (· < ·) → monotoneFrom true a l = true
  | [], _, _ => rfl
  | b :: l, a, h => by
    have hab : a < b := (List.pairwise_cons.mp h).1 b (by simp)
    unfold monotoneFrom
    rw [if_neg (by simp [hab])]
    exact monotoneFrom_inc l b (List.pairwise_cons.mp h).2

theorem initialize_inc {M : Type} (l : List ℚ) (a : ℚ) (ms : List M) (h : (a :: l).Pairwise (· < ·)) :
    ∃ lo hi, NDist.initialize (a :: l) ms = .ok ⟨l, ms, lo, hi, true⟩ := by
  have hm := monotoneFrom_inc l a h
  cases l with
  | nil => exact ⟨_, _, rfl⟩
  | cons b l =>
    cases l with
    | nil => exact ⟨_, _, by simp only [NDist.initialize, hm]; rfl⟩
    | cons c l =>
      have hab : a < b := (List.pairwise_cons.mp h).1 b (by simp)
      have hd : decide (b ≥ a) = true := by simp [hab.le]
      exact ⟨_, _, by simp only [NDist.initialize, hd, hm]; rfl⟩

/-- **C110** (refuted) The distribution made from such a file, with increasing radii, has a momentum distribution for every radius
but lacks the first radius. -/
theorem C110_refuted_radii {M : Type} (p : ℕ) (hp : 2 ≤ p) (F : DeprFile) (hg : GoodFile p F) (hF : Fits32 F) (d : DeprData)
    (hd : Loads p F d) (hinc : d.r.Pairwise (· < ·)) (mk : List ℚ → List ℚ → List ℚ → M) :
    ∃ x, deprLoadDist (rndBits p) (1 / 2 ^ p) mk F = .ok x ∧ x.r = d.r.tail ∧ x.r.length + 1 = d.nr ∧
      x.msdf = (List.range d.nr).map (fun i => mk d.p d.xi ((d.f.drop (i * (d.np * d.nxi))).take (d.np * d.nxi))) := by
  obtain ⟨h1, h2, h3, h4, h5, h6, h7, h8⟩ := hd.sizes hg hF
  unfold deprLoadDist
  rw [(C110_load_partial p hp F hg hF d).mpr hd]
  simp only [LRes.andThen]
  have hsl := slices_eq (hd.sizes hg hF)
  rw [if_neg (by omega), hsl]
  simp only
  have htake : d.r.take d.nr = d.r := by rw [← h5]; exact List.take_length
  rw [htake]
  cases er : d.r with
  | nil => rw [er] at h5; simp at h5; omega
  | cons a l =>
    rw [er] at hinc h5
    obtain ⟨lo, hi, e⟩ := initialize_inc l a (((List.range d.nr).map fun i => (d.f.drop (i * (d.np * d.nxi))).take (d.np * d.nxi)).map
      (mk d.p d.xi)) hinc
    rw [e]
    refine ⟨_, rfl, rfl, by simpa using h5, ?_⟩
    simp [List.map_map, Function.comp_def]

/-- **C110** Such a file is refused exactly when its radii neither rise strictly nor, if there are three or more, fall strictly. -/
theorem C110_order {M : Type} (p : ℕ) (hp : 2 ≤ p) (F : DeprFile) (hg : GoodFile p F) (hF : Fits32 F) (d : DeprData)
    (hd : Loads p F d) (mk : List ℚ → List ℚ → List ℚ → M) :
    (deprLoadDist (rndBits p) (1 / 2 ^ p) mk F = .throws ↔
      ¬ (d.r.Pairwise (· < ·) ∨ (3 ≤ d.nr ∧ d.r.Pairwise (· > ·)))) ∧
    ((d.r.Pairwise (· < ·) ∨ (3 ≤ d.nr ∧ d.r.Pairwise (· > ·))) → ∃ x, deprLoadDist (rndBits p) (1 / 2 ^ p) mk F = .ok x) := by
  obtain ⟨h1, h2, h3, h4, h5, h6, h7, h8⟩ := hd.sizes hg hF
  have e : deprLoadDist (rndBits p) (1 / 2 ^ p) mk F = match NDist.initialize d.r
      (((List.range d.nr).map fun i => (d.f.drop (i * (d.np * d.nxi))).take (d.np * d.nxi)).map (mk d.p d.xi)) with
        | .ub => .ub
        | .throws => .throws
        | .ok x => .ok x := by
    unfold deprLoadDist
    rw [(C110_load_partial p hp F hg hF d).mpr hd]
    simp only [LRes.andThen]
    have htake : d.r.take d.nr = d.r := by rw [← h5]; exact List.take_length
    rw [if_neg (by omega), slices_eq (hd.sizes hg hF), htake]
    rfl
  have h0 : d.r ≠ [] := by intro h; rw [h] at h5; simp at h5; omega
  rw [e, ← h5]
  rcases C56_initialize_iff d.r (((List.range d.r.length).map fun i => (d.f.drop (i * (d.np * d.nxi))).take (d.np * d.nxi)).map (mk d.p d.xi)) h0
    with ⟨ho, x, ex, -⟩ | ⟨ho, ex⟩
  · rw [ex]
    exact ⟨⟨fun h => by simp at h, fun h => absurd ho h⟩, fun _ => ⟨x, rfl⟩⟩
  · rw [ex]
    exact ⟨⟨fun _ => ho, fun _ => rfl⟩, fun h => absurd h ho⟩

/-- **C110** (refuted) With three radii the values at the second and third are those stored for the first and second. -/
theorem C110_refuted_values {M P : Type} (ev : M → P → ℚ) (p : ℕ) (hp : 2 ≤ p) (F : DeprFile) (hg : GoodFile p F) (hF : Fits32 F)
    (d : DeprData) (hd : Loads p F d) (r0 r1 r2 : ℚ) (hr : d.r = [r0, r1, r2]) (h01 : r0 < r1) (h12 : r1 < r2) (hz : r1 ≠ 0)
    (mk : List ℚ → List ℚ → List ℚ → M) (q : P) :
    ∃ x, deprLoadDist (rndBits p) (1 / 2 ^ p) mk F = .ok x ∧
      x.eval ev r1 q 0 = .ok (ev (mk d.p d.xi (d.f.take (d.np * d.nxi))) q) ∧
      x.eval ev r2 q 0 = .ok (ev (mk d.p d.xi ((d.f.drop (d.np * d.nxi)).take (d.np * d.nxi))) q) := by
  obtain ⟨h1, h2, h3, h4, h5, h6, h7, h8⟩ := hd.sizes hg hF
  rw [hr] at h5
  have hnr : d.nr = 3 := by simpa using h5.symm
  have hsl := slices_eq (hd.sizes hg hF)
  have hrange : List.range d.nr = [0, 1, 2] := by rw [hnr]; rfl
  obtain ⟨x, e, -, e1, e2⟩ := C56_refuted_initialize ev r0 r1 r2 (mk d.p d.xi (d.f.take (d.np * d.nxi)))
    (mk d.p d.xi ((d.f.drop (d.np * d.nxi)).take (d.np * d.nxi)))
    (mk d.p d.xi ((d.f.drop (2 * (d.np * d.nxi))).take (d.np * d.nxi))) q h01 h12 hz
  refine ⟨x, ?_, e1, e2⟩
  unfold deprLoadDist
  rw [(C110_load_partial p hp F hg hF d).mpr hd]
  simp only [LRes.andThen]
  rw [if_neg (by rw [hr, hnr]; simp), hsl, hrange]
  simp only [List.map_cons, List.map_nil, Nat.zero_mul, List.drop_zero, Nat.one_mul]
  have htake : d.r.take d.nr = [r0, r1, r2] := by rw [hr, hnr]; rfl
  rw [htake, e]

/-- **C110** (refuted) The products of the numbers of grid points are computed with 32 bits: with 65536 momenta and 65537 pitches a
matrix of 65536 values passes for the distribution, and the verification reads outside it. -/
theorem C110_refuted_wrap (v : ℚ) (R : Rnd (1 / 2 / 2 ^ 52)) (eps : ℚ) (he : 0 ≤ eps) :
    deprLoad R eps ⟨some ⟨1, 1, [v]⟩, some ⟨1, 65536, List.replicate 65536 v⟩, some ⟨1, 65537, List.replicate 65537 v⟩,
      some ⟨1, 65536, List.replicate 65536 v⟩, none, some ⟨1, 2, [v, v]⟩, none, some "normalized"⟩ = .ub := by
  have hz : R.fl 0 = 0 := R.fl_zero
  have hgood : verdictR R eps v v = true := by
    unfold verdictR
    simp [hz, he]
  have h0 : (List.replicate 65536 v)[0 * 65536]? = some v := by
    rw [Nat.zero_mul, List.getElem?_replicate]; simp
  have h1 : (List.replicate 65536 v)[(0 + 1) * 65536]? = none := by
    rw [List.getElem?_replicate]; simp
  generalize List.replicate 65536 v = L at h0 h1 ⊢
  generalize List.replicate 65537 v = L'
  have hv : verifyMat (verdictR R eps) L 65537 65536 (some ⟨1, 2, [v, v]⟩) = .ub := by
    unfold verifyMat
    simp only [verifyWith, h0, h1, hgood, if_true]
    simp
  have e1 : toU32 65536 = 65536 := rfl
  have e2 : toU32 65537 = 65537 := rfl
  have e3 : toU32 1 = 1 := rfl
  have e4 : toU32 (65536 * 65537) = 65536 := by decide
  unfold deprLoad
  simp only [readVec, Mat.vecLen, if_true, LRes.andThen, e1, e2, e3, fShape, e4, verifyMat, mustVerify]
  rw [if_neg (by decide)]
  have hv' := hv
  unfold verifyMat at hv'
  simp only at hv'
  simp only [hv']

/-- **C110** (refuted) An empty grid: without pitches and with a verification vector for the momenta a value outside the empty
data is read. -/
theorem C110_refuted_empty {u : ℚ} (R : Rnd u) (eps v : ℚ) :
    deprLoad R eps ⟨some ⟨1, 1, [v]⟩, some ⟨1, 1, [v]⟩, some ⟨1, 0, []⟩, some ⟨1, 0, []⟩, some ⟨1, 1, [v]⟩, none, none,
      some "normalized"⟩ = .ub := by
  unfold deprLoad
  simp [readVec, Mat.vecLen, LRes.andThen, fShape, verifyMat, mustVerify, verifyWith, toU32]

theorem slice_outside {u : ℚ} (R : Rnd u) (eps v : ℚ) {N : ℕ} (hN : N < 4294967296) (hw : toU32 (N * N) = 0) (L : List ℚ) (i : ℕ)
    (h0 : 0 < N) (hi : i < N) :
    deprMomentum R eps ⟨some ⟨1, N, L⟩, some ⟨1, N, L⟩, some ⟨1, 1, [v]⟩, some ⟨1, 0, []⟩, none, none, none, some "normalized"⟩ i =
      .ub := by
  have e1 : toU32 N = N := toU32_of_lt hN
  have e3 : toU32 1 = 1 := rfl
  have hl : deprLoad R eps ⟨some ⟨1, N, L⟩, some ⟨1, N, L⟩, some ⟨1, 1, [v]⟩, some ⟨1, 0, []⟩, none, none, none,
      some "normalized"⟩ = .ok ⟨N, N, 1, L, L, [v], []⟩ := by
    unfold deprLoad
    simp [readVec, Mat.vecLen, LRes.andThen, e1, e3, fShape, hw, verifyMat, mustVerify, unitFactor, scaleP]
  have hs : DeprData.slice ⟨N, N, 1, L, L, [v], []⟩ i = none := by
    unfold DeprData.slice
    dsimp only
    rw [Nat.mul_one, e1, if_pos (by rw [List.length_nil]; omega)]
  unfold deprMomentum
  rw [hl]
  simp only [LRes.andThen]
  rw [if_neg (by omega), hs]

/-- **C110** (refuted) The product of all numbers of grid points is computed with 32 bits too: with 65536 radii, 65536 momenta and
one pitch an empty matrix passes for the distribution.  The file is loaded, and every radius that is taken out of it is read outside
the data. -/
theorem C110_refuted_slice {u : ℚ} (R : Rnd u) (eps v : ℚ) (i : ℕ) (hi : i < 65536) :
    deprMomentum R eps ⟨some ⟨1, 65536, List.replicate 65536 v⟩, some ⟨1, 65536, List.replicate 65536 v⟩, some ⟨1, 1, [v]⟩,
      some ⟨1, 0, []⟩, none, none, none, some "normalized"⟩ i = .ub := by
  exact slice_outside R eps v (by decide) (by decide) _ i (by decide) hi

/-- **C110** The division of the momenta by the factor of a unit other than "normalized" changes the first `np` elements and no
others; an array with fewer elements is read outside. -/
theorem C110_scale {u : ℚ} (R : Rnd u) (c : ℚ) (hc : c ≠ 1) (np : ℕ) (l : List ℚ) :
    (l.length < np → scaleP R c np l = .ub) ∧
    (np ≤ l.length → ∃ q, scaleP R c np l = .ok q ∧ q.length = l.length ∧
      ∀ i x, l[i]? = some x → q[i]? = some (if i < np then R.fl (x / c) else x)) := by
  unfold scaleP
  rw [if_neg hc]
  refine ⟨fun h => if_pos h, fun h => ⟨_, if_neg (by omega), by simp; omega, fun i x hx => ?_⟩⟩
  by_cases hi : i < np
  · rw [if_pos hi, List.getElem?_append_left (by simp; have := (List.getElem?_eq_some_iff.mp hx).1; omega)]
    simp [hi, hx]
  · rw [if_neg hi, List.getElem?_append_right (by simp; omega)]
    have e : min np l.length = np := by omega
    simp only [List.length_map, List.length_take, e, List.getElem?_drop]
    rw [show np + (i - np) = i by omega, hx]

/-- **C110** A radial grid with fewer numbers than announced (a matrix that is not complete) is read outside. -/
theorem C110_incomplete {M : Type} {u : ℚ} (R : Rnd u) (eps : ℚ) (mk : List ℚ → List ℚ → List ℚ → M) (F : DeprFile) (d : DeprData)
    (h : deprLoad R eps F = .ok d) (hr : d.r.length < d.nr) : deprLoadDist R eps mk F = .ub := by
  unfold deprLoadDist
  rw [h]
  exact if_pos hr

/-- A file with two radii, two momenta and one pitch in units of the electron mass. -/
def sampleDepr : DeprFile :=
  ⟨some ⟨1, 2, [1, 2]⟩, some ⟨2, 1, [1, 3]⟩, some ⟨1, 1, [1 / 2]⟩, some ⟨2, 2, [5, 6, 7, 8]⟩, some ⟨1, 2, [5, 6]⟩, none,
    some ⟨1, 2, [5, 7]⟩, some "normalized"⟩

example : deprLoad (rndBits 52) (1 / 2 ^ 52) sampleDepr = .ok ⟨2, 2, 1, [1, 2], [1, 3], [1 / 2], [5, 6, 7, 8]⟩ ∧
    deprMomentum (rndBits 52) (1 / 2 ^ 52) sampleDepr 1 = .ok [7, 8] ∧
    deprMomentum (rndBits 52) (1 / 2 ^ 52) sampleDepr 2 = .throws ∧
    deprLoad (rndBits 52) (1 / 2 ^ 52) { sampleDepr with fr0 := some ⟨1, 2, [5, 6]⟩ } = .throws ∧
    deprLoad (rndBits 52) (1 / 2 ^ 52) { sampleDepr with punits := some "mc" } = .throws := by
  rw [rndQ_eq]; decide +kernel

/-- One of two announced radii is there. -/
example : deprLoad (rndBits 52) (1 / 2 ^ 52) { sampleDepr with r := some ⟨1, 2, [1]⟩ } =
    .ok ⟨2, 2, 1, [1], [1, 3], [1 / 2], [5, 6, 7, 8]⟩ := by
  rw [rndQ_eq]; decide +kernel

/-- The premises of the theorems are met by this file. -/
example : GoodFile 52 sampleDepr ∧ Fits32 sampleDepr := by
  refine ⟨⟨?_, ?_⟩, ?_⟩
  · intro m h
    simp only [sampleDepr, Option.some.injEq, reduceCtorEq, false_or] at h
    rcases h with rfl | rfl | rfl | rfl | rfl | rfl <;> rfl
  · intro m h
    simp only [sampleDepr, Option.some.injEq, reduceCtorEq, false_or] at h
    unfold Rnd.Is
    rw [rndQ_eq]
    rcases h with rfl | rfl | rfl | rfl <;> decide +kernel
  · intro r p xi nr np nxi h1 h2 h3 h4 h5 h6
    simp only [sampleDepr, Option.some.injEq] at h1 h2 h3
    subst h1 h2 h3
    have e1 : nr = 2 := by simp [IsVecOf] at h4; omega
    have e2 : np = 2 := by simp [IsVecOf] at h5; omega
    have e3 : nxi = 1 := by simp [IsVecOf] at h6; omega
    subst e1 e2 e3
    decide

end Softlib
