/-
C133: floating point numbers in SDT files.
-/
import Verif.SFile.SdtNumLemmas
import Verif.SFile.SdtIntProps

namespace Softlib
open Softlib.Config Softlib.SFile Softlib.General

/-! ### six digits -/

theorem ten_zpow_pos (e : ℤ) : (0 : ℚ) < 10 ^ e := zpow_pos (by norm_num) e

theorem rne_near {x : ℚ} {n : ℤ} (h : |x - n| < 1 / 2) : rne x = n := by
  have h4 := rne_error x
  rw [abs_lt] at h
  rw [abs_le] at h4
  have h5 : ((rne x - n : ℤ) : ℚ) < 1 := by push_cast; linarith [h4.1, h4.2, h.1, h.2]
  have h6 : (-1 : ℚ) < ((rne x - n : ℤ) : ℚ) := by push_cast; linarith [h4.1, h4.2, h.1, h.2]
  have h5' : rne x - n < 1 := by exact_mod_cast h5
  have h6' : -1 < rne x - n := by exact_mod_cast h6
  omega

theorem log_ten {a : ℚ} {e : ℤ} (h1 : 10 ^ e ≤ a) (h2 : a < 10 ^ (e + 1)) : Int.log 10 a = e := by
  have ha : 0 < a := lt_of_lt_of_le (ten_zpow_pos e) h1
  apply le_antisymm
  · have := (Int.lt_zpow_iff_log_lt (b := 10) (by norm_num) (x := e + 1) ha).1 (by exact_mod_cast h2)
    omega
  · exact (Int.zpow_le_iff_le_log (b := 10) (by norm_num) ha).1 (by exact_mod_cast h1)

theorem ten_bounds {a : ℚ} (ha : 0 < a) : (10 : ℚ) ^ Int.log 10 a ≤ a ∧ a < 10 ^ (Int.log 10 a + 1) := by
  have h1 := Int.zpow_log_le_self (b := 10) (by norm_num) ha
  have h2 := Int.lt_zpow_succ_log_self (b := 10) (by norm_num) a
  exact ⟨by exact_mod_cast h1, by exact_mod_cast h2⟩

theorem ten_up (e : ℤ) : (10 : ℚ) ^ e = 10 ^ 5 * 10 ^ (e - 5) ∧ (10 : ℚ) ^ (e + 1) = 10 ^ 6 * 10 ^ (e - 5) := by
  have := ten_zpow_pos (e - 5)
  constructor
  · conv_lhs => rw [show e = 5 + (e - 5) by ring, zpow_add₀ (by norm_num)]
    norm_num
  · conv_lhs => rw [show e + 1 = 6 + (e - 5) by ring, zpow_add₀ (by norm_num)]
    norm_num

/-- The digits of a number: six of them, and their value is that of rounding at the last digit. -/
theorem sixDigits_spec {x : ℚ} (hx : x ≠ 0) :
    10 ^ 5 ≤ (sixDigits x).1 ∧ (sixDigits x).1 < 10 ^ 6 ∧
      ((sixDigits x).1 : ℚ) * 10 ^ ((sixDigits x).2 - 5) =
        rne (|x| / 10 ^ (Int.log 10 |x| - 5)) * 10 ^ (Int.log 10 |x| - 5) := by
  have ha : 0 < |x| := abs_pos.mpr hx
  obtain ⟨b1, b2⟩ := ten_bounds ha
  set e := Int.log 10 |x| with he
  have hu := ten_zpow_pos (e - 5)
  rw [(ten_up e).1] at b1
  rw [(ten_up e).2] at b2
  have r1 : (10 ^ 5 : ℤ) ≤ rne (|x| / 10 ^ (e - 5)) := by
    rw [← rne_int (10 ^ 5)]
    apply rne_mono
    rw [le_div_iff₀ hu]
    push_cast
    exact b1
  have r2 : rne (|x| / 10 ^ (e - 5)) ≤ (10 ^ 6 : ℤ) := by
    rw [← rne_int (10 ^ 6)]
    apply rne_mono
    rw [div_le_iff₀ hu]
    push_cast
    exact b2.le
  have hs : sixDigits x = if (rne (|x| / 10 ^ (e - 5))).toNat = 10 ^ 6 then (10 ^ 5, e + 1) else ((rne (|x| / 10 ^ (e - 5))).toNat, e) :=
    rfl
  rw [hs]
  generalize rne (|x| / 10 ^ (e - 5)) = k at r1 r2 ⊢
  by_cases hk : k.toNat = 10 ^ 6
  · rw [if_pos hk]
    have hk' : k = 10 ^ 6 := by omega
    refine ⟨le_refl _, by norm_num, ?_⟩
    rw [hk', show e + 1 - 5 = 1 + (e - 5) by ring, zpow_add₀ (by norm_num)]
    push_cast
    ring
  · rw [if_neg hk]
    refine ⟨by omega, by omega, ?_⟩
    have : ((k.toNat : ℕ) : ℚ) = (k : ℚ) := by
      have : ((k.toNat : ℕ) : ℤ) = k := by omega
      exact_mod_cast congrArg (fun z : ℤ => (z : ℚ)) this
    rw [this]

/-- A number close to a decimal of six digits has those digits. -/
theorem sixDigits_near {y : ℚ} {m : ℕ} {e : ℤ} (h1 : 10 ^ 5 ≤ m) (h2 : m < 10 ^ 6)
    (h : |(|y| - m * 10 ^ (e - 5))| ≤ m * 10 ^ (e - 5) * (1 / (3 * 10 ^ 6))) : sixDigits y = (m, e) := by
  have hu := ten_zpow_pos (e - 5)
  have hm1 : (10 ^ 5 : ℚ) ≤ m := by exact_mod_cast h1
  have hm2 : (m : ℚ) ≤ 10 ^ 6 - 1 := by
    have : m + 1 ≤ 10 ^ 6 := h2
    have : ((m + 1 : ℕ) : ℚ) ≤ ((10 ^ 6 : ℕ) : ℚ) := by exact_mod_cast this
    push_cast at this
    linarith
  set a := |y| with ha
  set v := a / 10 ^ (e - 5) with hv
  have hav : a = v * 10 ^ (e - 5) := by rw [hv]; field_simp
  have hd : |v - m| ≤ m * (1 / (3 * 10 ^ 6)) := by
    have : a - m * 10 ^ (e - 5) = (v - m) * 10 ^ (e - 5) := by rw [hav]; ring
    rw [this, abs_mul, abs_of_pos hu, mul_right_comm] at h
    exact le_of_mul_le_mul_right h hu
  have hd2 : |v - m| < 1 / 2 := lt_of_le_of_lt hd (by linarith)
  rw [abs_le] at hd
  have up : a < 10 ^ (e + 1) := by
    rw [(ten_up e).2, hav]
    apply mul_lt_mul_of_pos_right _ hu
    linarith [hd.2]
  by_cases hc : 10 ^ e ≤ a
  · have hl := log_ten hc up
    have hr : rne v = (m : ℤ) := rne_near (by push_cast; exact hd2)
    have hs : sixDigits y = if (rne (a / 10 ^ (Int.log 10 a - 5))).toNat = 10 ^ 6 then (10 ^ 5, Int.log 10 a + 1)
      else ((rne (a / 10 ^ (Int.log 10 a - 5))).toNat, Int.log 10 a) := rfl
    rw [hs, hl, ← hv, hr, Int.toNat_natCast, if_neg (by omega)]
  · push Not at hc
    rw [(ten_up e).1, hav] at hc
    have hv5 : v < 10 ^ 5 := lt_of_mul_lt_mul_right hc hu.le
    have hm : m = 10 ^ 5 := by
      have : (m : ℚ) < ((10 ^ 5 + 1 : ℕ) : ℚ) := by push_cast; linarith [hd.1]
      have : m < 10 ^ 5 + 1 := by exact_mod_cast this
      omega
    have e6 : (10 : ℚ) ^ (e - 5) = 10 * 10 ^ (e - 1 - 5) := by
      rw [show e - 5 = 1 + (e - 1 - 5) by ring, zpow_add₀ (by norm_num)]; norm_num
    have hu6 := ten_zpow_pos (e - 1 - 5)
    have hm' : (m : ℚ) = 10 ^ 5 := by rw [hm]; norm_num
    rw [hm'] at hd hd2
    have lo : 10 ^ (e - 1) ≤ a := by
      rw [(ten_up (e - 1)).1, hav, e6, ← mul_assoc]
      apply mul_le_mul_of_nonneg_right _ hu6.le
      linarith [hd.1]
    have hi : a < 10 ^ (e - 1 + 1) := by
      rw [(ten_up (e - 1)).2, hav, e6, ← mul_assoc]
      apply mul_lt_mul_of_pos_right _ hu6
      linarith
    have hl := log_ten lo hi
    have hq : a / 10 ^ (e - 1 - 5) = v * 10 := by rw [hav, e6]; field_simp
    have hr : rne (v * 10) = (10 ^ 6 : ℤ) := by
      apply rne_near
      push_cast
      rw [abs_lt]
      constructor <;> linarith [hd.1]
    have hs : sixDigits y = if (rne (a / 10 ^ (Int.log 10 a - 5))).toNat = 10 ^ 6 then (10 ^ 5, Int.log 10 a + 1)
      else ((rne (a / 10 ^ (Int.log 10 a - 5))).toNat, Int.log 10 a) := rfl
    rw [hs, hl, hq, hr, if_pos (by rfl), hm]
    congr 1
    ring

/-- The decimal that is written. -/
def sixValue (x : ℚ) : ℚ :=
  if x = 0 then 0 else (if x < 0 then -1 else 1) * ((sixDigits x).1 : ℚ) * 10 ^ ((sixDigits x).2 - 5)

/-- The number that is read where `x` was written. -/
def backNum (p : ℕ) (x : ℚ) : ℚ := flBits p (sixValue x)

theorem sixDigits_neg (x : ℚ) : sixDigits (-x) = sixDigits x := by
  unfold sixDigits; rw [abs_neg]

theorem sixValue_zero : sixValue 0 = 0 := if_pos rfl

theorem sixValue_neg (x : ℚ) : sixValue (-x) = -sixValue x := by
  unfold sixValue
  rcases lt_trichotomy x 0 with h | h | h
  · rw [if_neg (by linarith : ¬ -x = 0), if_neg h.ne, if_neg (by linarith : ¬ -x < 0), if_pos h, sixDigits_neg]
    ring
  · subst h; simp
  · rw [if_neg (by linarith : ¬ -x = 0), if_neg h.ne', if_pos (by linarith : -x < 0), if_neg (by linarith : ¬ x < 0), sixDigits_neg]
    ring

theorem sixValue_pos {x : ℚ} (hx : 0 < x) :
    sixValue x = ((sixDigits x).1 : ℚ) * 10 ^ ((sixDigits x).2 - 5) ∧
    sixValue x = rne (x / 10 ^ (Int.log 10 x - 5)) * 10 ^ (Int.log 10 x - 5) := by
  have h1 : sixValue x = ((sixDigits x).1 : ℚ) * 10 ^ ((sixDigits x).2 - 5) := by
    rw [sixValue, if_neg hx.ne', if_neg (not_lt.mpr hx.le), one_mul]
  refine ⟨h1, ?_⟩
  rw [h1]
  have := (sixDigits_spec hx.ne').2.2
  rwa [abs_of_pos hx] at this

theorem abs_sixValue (x : ℚ) : |sixValue x| = sixValue |x| := by
  have hp : ∀ y : ℚ, 0 < y → 0 < sixValue y := by
    intro y hy
    rw [(sixValue_pos hy).1]
    have h := (sixDigits_spec hy.ne').1
    have : (0 : ℚ) < (sixDigits y).1 := by
      have : 0 < (sixDigits y).1 := by omega
      exact_mod_cast this
    exact mul_pos this (ten_zpow_pos _)
  rcases lt_trichotomy x 0 with h | h | h
  · rw [abs_of_neg h, sixValue_neg, abs_of_neg]
    have := hp (-x) (by linarith)
    rw [sixValue_neg] at this
    linarith
  · subst h; simp [sixValue_zero]
  · rw [abs_of_pos h, abs_of_pos (hp x h)]

theorem sixValue_ne {x : ℚ} (hx : x ≠ 0) : sixValue x ≠ 0 := by
  have h := sixDigits_spec hx
  rw [sixValue, if_neg hx]
  have : (0 : ℚ) < (sixDigits x).1 := by
    have : 0 < (sixDigits x).1 := by omega
    exact_mod_cast this
  apply mul_ne_zero (mul_ne_zero _ this.ne') (ten_zpow_pos _).ne'
  split_ifs <;> norm_num

/-- What it takes to know the digits of a number. -/
theorem sixDigits_eq {x : ℚ} {m : ℕ} {e : ℤ} (h1 : 10 ^ e ≤ |x|) (h2 : |x| < 10 ^ (e + 1)) (h3 : |(|x| / 10 ^ (e - 5) - m)| < 1 / 2)
    (hm : m < 10 ^ 6) : sixDigits x = (m, e) := by
  have hl := log_ten h1 h2
  have hr : rne (|x| / 10 ^ (e - 5)) = (m : ℤ) := rne_near (by push_cast; exact h3)
  have hs : sixDigits x = if (rne (|x| / 10 ^ (Int.log 10 |x| - 5))).toNat = 10 ^ 6 then (10 ^ 5, Int.log 10 |x| + 1)
    else ((rne (|x| / 10 ^ (Int.log 10 |x| - 5))).toNat, Int.log 10 |x|) := rfl
  rw [hs, hl, hr, Int.toNat_natCast, if_neg (by omega)]

/-! ### one number -/

/-- C133: the text that is written for a finite number is read, after blanks and up to a blank or the end of the line, as the number that is
nearest to the decimal of six digits. -/
theorem C133_text (p : ℕ) (x : ℚ) : LineReadsAs (fun y => outNum (.fin y)) (numCodec p) x (backNum p x) := by
  by_cases hx : x = 0
  · subst hx
    have e : outNum (.fin 0) = ['0'] := by simp [outNum]
    refine ⟨by simp only [e]; decide, fun ws rest hws hr => ?_⟩
    have h := readDec_zero hws hr
    simp only [e]
    show (readDec (ws ++ ['0'] ++ rest)).map _ = _
    rw [h, backNum, sixValue_zero]
    rfl
  · obtain ⟨h1, h2, -⟩ := sixDigits_spec hx
    have e : outNum (.fin x) = (if decide (x < 0) then ['-'] else []) ++ sixText (sixDigits x).1 (sixDigits x).2 := by
      simp [outNum, hx]
    refine ⟨?_, fun ws rest hws hr => ?_⟩
    · simp only [e]
      intro hm
      have hd : ∀ c ∈ sixText (sixDigits x).1 (sixDigits x).2, c ≠ '\n' := by
        generalize (sixDigits x).1 = m
        generalize (sixDigits x).2 = z
        exact sixText_line m z
      rcases List.mem_append.1 hm with hm | hm
      · split_ifs at hm
        · exact absurd hm (by decide)
        · cases hm
      · exact hd _ hm rfl
    · have h := readDec_six (sixDigits x).2 (decide (x < 0)) hws h1 h2 hr
      simp only [e]
      show (readDec _).map _ = _
      rw [h, backNum, sixValue, if_neg hx]
      simp

/-- C133: the decimal is one of at most six digits, and no such decimal is closer to the number. -/
theorem C133_nearest (x : ℚ) : (∃ (m e : ℤ), |m| < 10 ^ 6 ∧ sixValue x = m * 10 ^ e) ∧
    ∀ (m e : ℤ), |m| < 10 ^ 6 → |sixValue x - x| ≤ |(m : ℚ) * 10 ^ e - x| := by
  constructor
  · by_cases hx : x = 0
    · exact ⟨0, 0, by norm_num, by simp [hx, sixValue_zero]⟩
    · obtain ⟨h1, h2, -⟩ := sixDigits_spec hx
      refine ⟨(if x < 0 then -1 else 1) * ((sixDigits x).1 : ℤ), (sixDigits x).2 - 5, ?_, ?_⟩
      · split_ifs
        · rw [neg_one_mul, abs_neg, abs_of_nonneg (by omega)]; omega
        · rw [one_mul, abs_of_nonneg (by omega)]; omega
      · rw [sixValue, if_neg hx]
        push_cast
        congr 2
  · have key : ∀ y : ℚ, 0 < y → ∀ (m e : ℤ), |m| < 10 ^ 6 → |sixValue y - y| ≤ |(m : ℚ) * 10 ^ e - y| := by
      intro y hy m e hm
      obtain ⟨b1, b2⟩ := ten_bounds hy
      rw [(sixValue_pos hy).2]
      set l := Int.log 10 y with hl
      have hu := ten_zpow_pos (l - 5)
      rw [(ten_up l).1] at b1
      -- rounding is at least as close as any integer multiple
      have near : ∀ k : ℤ, |(rne (y / 10 ^ (l - 5)) : ℚ) * 10 ^ (l - 5) - y| ≤ |(k : ℚ) * 10 ^ (l - 5) - y| := by
        intro k
        have e1 : ∀ q : ℚ, q * 10 ^ (l - 5) - y = (q - y / 10 ^ (l - 5)) * 10 ^ (l - 5) := by
          intro q; field_simp
        rw [e1, e1, abs_mul, abs_mul]
        apply mul_le_mul_of_nonneg_right _ (abs_nonneg _)
        by_cases hk : k = rne (y / 10 ^ (l - 5))
        · rw [hk]
        · have he := rne_error (y / 10 ^ (l - 5))
          have h1 : (1 : ℚ) ≤ |(k : ℚ) - rne (y / 10 ^ (l - 5))| := by
            have : 1 ≤ |k - rne (y / 10 ^ (l - 5))| := Int.one_le_abs (sub_ne_zero.mpr hk)
            exact_mod_cast this
          have h2 : |(k : ℚ) - rne (y / 10 ^ (l - 5))| ≤ |(k : ℚ) - y / 10 ^ (l - 5)| + |(rne (y / 10 ^ (l - 5)) : ℚ) - y / 10 ^ (l - 5)| := by
            have := abs_sub_le (k : ℚ) (y / 10 ^ (l - 5)) (rne (y / 10 ^ (l - 5)))
            rwa [abs_sub_comm (y / 10 ^ (l - 5))] at this
          linarith
      by_cases hle : l - 5 ≤ e
      · obtain ⟨n, hn⟩ := Int.eq_ofNat_of_zero_le (show 0 ≤ e - (l - 5) by omega)
        have : (m : ℚ) * 10 ^ e = ((m * 10 ^ n : ℤ) : ℚ) * 10 ^ (l - 5) := by
          rw [show e = (n : ℤ) + (l - 5) by omega, zpow_add₀ (by norm_num)]
          push_cast
          rw [zpow_natCast]
          ring
        rw [this]
        exact near _
      · have hlt : (m : ℚ) * 10 ^ e ≤ 10 ^ 5 * 10 ^ (l - 5) := by
          have h1 : (m : ℚ) ≤ 10 ^ 6 := by
            have : m ≤ 10 ^ 6 := by have := le_abs_self m; omega
            exact_mod_cast this
          have h2 : (10 : ℚ) ^ e ≤ 10 ^ (l - 5 - 1) := zpow_le_zpow_right₀ (by norm_num) (by omega)
          have h3 : (10 : ℚ) ^ (l - 5) = 10 * 10 ^ (l - 5 - 1) := by
            conv_lhs => rw [show l - 5 = 1 + (l - 5 - 1) by ring, zpow_add₀ (by norm_num)]
            norm_num
          calc (m : ℚ) * 10 ^ e ≤ 10 ^ 6 * 10 ^ e := mul_le_mul_of_nonneg_right h1 (ten_zpow_pos e).le
            _ ≤ 10 ^ 6 * 10 ^ (l - 5 - 1) := mul_le_mul_of_nonneg_left h2 (by norm_num)
            _ = _ := by rw [h3]; ring
        refine le_trans (near (10 ^ 5)) ?_
        push_cast
        rw [abs_of_nonpos (by linarith), abs_of_nonpos (by linarith)]
        linarith
    intro m e hm
    rcases lt_trichotomy x 0 with h | h | h
    · have := key (-x) (by linarith) (-m) e (by rwa [abs_neg])
      rw [sixValue_neg, show -sixValue x - -x = -(sixValue x - x) by ring, abs_neg] at this
      push_cast at this
      rwa [show -(m : ℚ) * 10 ^ e - -x = -((m : ℚ) * 10 ^ e - x) by ring, abs_neg] at this
    · subst h
      rw [sixValue_zero, sub_zero, abs_zero]
      exact abs_nonneg _
    · exact key x h m e hm

theorem sixValue_rel (x : ℚ) : |sixValue x - x| ≤ 1 / 2 / 10 ^ 5 * |x| := by
  have key : ∀ y : ℚ, 0 < y → |sixValue y - y| ≤ 1 / 2 / 10 ^ 5 * |y| := by
    intro y hy
    obtain ⟨b1, -⟩ := ten_bounds hy
    rw [(sixValue_pos hy).2]
    set l := Int.log 10 y with hl
    have hu := ten_zpow_pos (l - 5)
    rw [(ten_up l).1] at b1
    have e1 : ∀ q : ℚ, q * 10 ^ (l - 5) - y = (q - y / 10 ^ (l - 5)) * 10 ^ (l - 5) := by
      intro q; field_simp
    rw [e1, abs_mul, abs_of_pos hu, abs_of_pos hy]
    have he := rne_error (y / 10 ^ (l - 5))
    have := mul_le_mul_of_nonneg_right he hu.le
    linarith
  rcases lt_trichotomy x 0 with h | h | h
  · have := key (-x) (by linarith)
    rwa [sixValue_neg, show -sixValue x - -x = -(sixValue x - x) by ring, abs_neg, abs_neg] at this
  · subst h; simp [sixValue_zero]
  · exact key x h

theorem fl_small {p : ℕ} (hp : 23 ≤ p) (v : ℚ) : |flBits p v - v| ≤ 1 / 2 / 2 ^ 23 * |v| := by
  refine le_trans (flBits_rel p v) (mul_le_mul_of_nonneg_right ?_ (abs_nonneg v))
  have : (2 : ℚ) ^ 23 ≤ 2 ^ p := pow_le_pow_right₀ (by norm_num) hp
  exact div_le_div_of_nonneg_left (by norm_num) (by norm_num) this

/-- C133: the number that comes back differs from the one that was written by at most 5.1 millionths of it. -/
theorem C133_error (p : ℕ) (hp : 23 ≤ p) (x : ℚ) : |backNum p x - x| ≤ 51 / 10 ^ 7 * |x| := by
  have h1 := sixValue_rel x
  have h2 := fl_small hp (sixValue x)
  have h3 : |sixValue x| ≤ |sixValue x - x| + |x| := by
    have := abs_add_le (sixValue x - x) x
    rwa [sub_add_cancel] at this
  have h4 : |backNum p x - x| ≤ |flBits p (sixValue x) - sixValue x| + |sixValue x - x| := abs_sub_le _ _ _
  have h0 := abs_nonneg x
  norm_num at h1 h2 ⊢
  linarith

/-- The digits of what comes back are those that were written. -/
theorem sixDigits_back {p : ℕ} (hp : 23 ≤ p) {x : ℚ} (hx : x ≠ 0) :
    sixDigits (backNum p x) = sixDigits x ∧ backNum p x ≠ 0 ∧ (backNum p x < 0 ↔ x < 0) := by
  have key : ∀ y : ℚ, 0 < y → sixDigits (backNum p y) = sixDigits y ∧ 0 < backNum p y := by
    intro y hy
    obtain ⟨h1, h2, -⟩ := sixDigits_spec hy.ne'
    have hv := (sixValue_pos hy).1
    have hvp : 0 < sixValue y := by
      rcases lt_or_eq_of_le (abs_nonneg (sixValue y)) with h | h
      · rwa [abs_sixValue, abs_of_pos hy] at h
      · exact absurd (abs_eq_zero.mp h.symm) (sixValue_ne hy.ne')
    have hb := fl_small hp (sixValue y)
    rw [abs_of_pos hvp, abs_le] at hb
    have hpos : 0 < backNum p y := by
      unfold backNum
      norm_num at hb
      linarith [hb.1]
    refine ⟨?_, hpos⟩
    have : sixDigits (backNum p y) = ((sixDigits y).1, (sixDigits y).2) := by
      apply sixDigits_near h1 h2
      rw [abs_of_pos hpos, ← hv, abs_le]
      unfold backNum
      norm_num at hb ⊢
      constructor <;> linarith [hb.1, hb.2]
    exact this
  rcases lt_or_gt_of_ne hx with h | h
  · obtain ⟨k1, k2⟩ := key (-x) (by linarith)
    have e : backNum p (-x) = -backNum p x := by rw [backNum, sixValue_neg, flBits_neg]; rfl
    rw [e, sixDigits_neg, sixDigits_neg] at k1
    rw [e] at k2
    exact ⟨k1, by linarith, ⟨fun _ => h, fun _ => by linarith⟩⟩
  · obtain ⟨k1, k2⟩ := key x h
    exact ⟨k1, k2.ne', ⟨fun _ => by linarith, fun _ => by linarith⟩⟩

theorem backNum_zero (p : ℕ) : backNum p 0 = 0 := by rw [backNum, sixValue_zero, flBits_zero]

/-- C133: a number that has come back is written with the same text, and comes back unchanged from then on. -/
theorem C133_stable (p : ℕ) (hp : 23 ≤ p) (x : ℚ) :
    outNum (.fin (backNum p x)) = outNum (.fin x) ∧ backNum p (backNum p x) = backNum p x := by
  by_cases hx : x = 0
  · subst hx; rw [backNum_zero]; exact ⟨rfl, backNum_zero p⟩
  · obtain ⟨h1, h2, h3⟩ := sixDigits_back hp hx
    constructor
    · simp only [outNum, h1, if_neg h2, if_neg hx, h3]
    · have : sixValue (backNum p x) = sixValue x := by
        simp only [sixValue, h1, if_neg h2, if_neg hx, h3]
      conv_lhs => rw [backNum, this]
      rfl

/-- C133: a number comes back unchanged exactly if it is the floating point number nearest to some decimal of at most six digits. -/
theorem C133_same_iff (p : ℕ) (hp : 23 ≤ p) (x : ℚ) :
    backNum p x = x ↔ ∃ (m e : ℤ), |m| < 10 ^ 6 ∧ x = flBits p (m * 10 ^ e) := by
  constructor
  · intro h
    obtain ⟨m, e, hm, hv⟩ := (C133_nearest x).1
    exact ⟨m, e, hm, by rw [← hv]; exact h.symm⟩
  · rintro ⟨m, e, hm, rfl⟩
    have h6 : sixValue (m * 10 ^ e) = m * 10 ^ e := by
      have := (C133_nearest (m * 10 ^ e)).2 m e hm
      rw [sub_self, abs_zero] at this
      exact sub_eq_zero.mp (abs_eq_zero.mp (le_antisymm this (abs_nonneg _)))
    have : backNum p (m * 10 ^ e) = flBits p (m * 10 ^ e) := by rw [backNum, h6]
    rw [← this]
    exact (C133_stable p hp _).2

/-- C133: whole numbers of at most six digits come back unchanged. -/
theorem C133_whole (p : ℕ) (hp : 23 ≤ p) (z : ℤ) (hz : |z| < 10 ^ 6) : backNum p z = z := by
  rw [C133_same_iff p hp]
  refine ⟨z, 0, hz, ?_⟩
  have : |z| ≤ 2 ^ (p + 1) := by
    have : (2 : ℤ) ^ 24 ≤ 2 ^ (p + 1) := pow_le_pow_right₀ (by norm_num) (by omega)
    omega
  have := flBits_exact p (e := 0) this
  simp only [zpow_zero, mul_one] at this ⊢
  exact this.symm

theorem sixValue_mono {x y : ℚ} (h : x ≤ y) : sixValue x ≤ sixValue y := by
  have nn : ∀ y : ℚ, 0 ≤ y → 0 ≤ sixValue y := by
    intro y hy
    have := abs_sixValue y
    rw [abs_of_nonneg hy] at this
    rw [← this]
    exact abs_nonneg _
  have key : ∀ x y : ℚ, 0 < x → x ≤ y → sixValue x ≤ sixValue y := by
    intro x y hx h
    have hy : 0 < y := lt_of_lt_of_le hx h
    rw [(sixValue_pos hx).2, (sixValue_pos hy).2]
    have hl := Int.log_mono_right (b := 10) hx h
    rcases lt_or_eq_of_le hl with hlt | heq
    · obtain ⟨-, b2⟩ := ten_bounds hx
      obtain ⟨b1, -⟩ := ten_bounds hy
      have hux := ten_zpow_pos (Int.log 10 x - 5)
      have huy := ten_zpow_pos (Int.log 10 y - 5)
      have r1 : rne (x / 10 ^ (Int.log 10 x - 5)) ≤ (10 ^ 6 : ℤ) := by
        rw [← rne_int (10 ^ 6)]
        apply rne_mono
        rw [div_le_iff₀ hux]
        push_cast
        rw [(ten_up _).2] at b2
        exact b2.le
      have r2 : (10 ^ 5 : ℤ) ≤ rne (y / 10 ^ (Int.log 10 y - 5)) := by
        rw [← rne_int (10 ^ 5)]
        apply rne_mono
        rw [le_div_iff₀ huy]
        push_cast
        rw [(ten_up _).1] at b1
        exact b1
      have r1' : (rne (x / 10 ^ (Int.log 10 x - 5)) : ℚ) ≤ 10 ^ 6 := by exact_mod_cast r1
      have r2' : (10 ^ 5 : ℚ) ≤ rne (y / 10 ^ (Int.log 10 y - 5)) := by exact_mod_cast r2
      calc _ ≤ 10 ^ 6 * (10 : ℚ) ^ (Int.log 10 x - 5) := mul_le_mul_of_nonneg_right r1' hux.le
        _ = 10 ^ (Int.log 10 x + 1) := (ten_up _).2.symm
        _ ≤ 10 ^ Int.log 10 y := zpow_le_zpow_right₀ (by norm_num) (by omega)
        _ = 10 ^ 5 * 10 ^ (Int.log 10 y - 5) := (ten_up _).1
        _ ≤ _ := mul_le_mul_of_nonneg_right r2' huy.le
    · rw [heq]
      have hu := ten_zpow_pos (Int.log 10 y - 5)
      apply mul_le_mul_of_nonneg_right _ hu.le
      have : rne (x / 10 ^ (Int.log 10 y - 5)) ≤ rne (y / 10 ^ (Int.log 10 y - 5)) :=
        rne_mono (div_le_div_of_nonneg_right h hu.le)
      exact_mod_cast this
  rcases lt_or_ge 0 x with hx | hx
  · exact key x y hx h
  · rcases lt_or_ge y 0 with hy | hy
    · have := key (-y) (-x) (by linarith) (by linarith)
      rw [sixValue_neg, sixValue_neg] at this
      linarith
    · have h1 := nn y hy
      have h2 := nn (-x) (by linarith)
      rw [sixValue_neg] at h2
      linarith

/-- C133: the order of numbers is kept, but not strictly. -/
theorem C133_order (p : ℕ) {x y : ℚ} (h : x ≤ y) : backNum p x ≤ backNum p y := flBits_mono p _ _ (sixValue_mono h)

theorem backNum_large {x : ℚ} {m : ℕ} (h1 : 10 ^ (6 : ℤ) ≤ x) (h2 : x < 10 ^ (7 : ℤ)) (h3 : |x / 10 - m| < 1 / 2) (hm : m < 10 ^ 6) :
    sixValue x = m * 10 := by
  have hx : 0 < x := lt_of_lt_of_le (by norm_num) h1
  have := sixDigits_eq (x := x) (m := m) (e := 6) (by rwa [abs_of_pos hx]) (by rw [abs_of_pos hx]; exact h2)
    (by rw [abs_of_pos hx, show (6 : ℤ) - 5 = 1 by norm_num, zpow_one]; exact h3) hm
  rw [(sixValue_pos hx).1, this]
  norm_num

/-- C133, refuted: numbers do not come back; 1234567 comes back as 1234570. -/
theorem C133_refuted : ∃ x : ℚ, flBits 52 x = x ∧ backNum 52 x ≠ x ∧ backNum 52 x = 1234570 := by
  have h : sixValue 1234567 = 1234570 := by
    rw [backNum_large (m := 123457) (by norm_num) (by norm_num) (by norm_num [abs_lt]) (by norm_num)]
    norm_num
  have e : ∀ z : ℤ, |z| ≤ 2 ^ 53 → flBits 52 (z : ℚ) = z := by
    intro z hz
    have := flBits_exact 52 (e := 0) (m := z) hz
    simpa using this
  have e1 := e 1234567 (by norm_num)
  have e2 := e 1234570 (by norm_num)
  push_cast at e1 e2
  have hb : backNum 52 1234567 = 1234570 := by rw [backNum, h, e2]
  exact ⟨1234567, e1, by rw [hb]; norm_num, hb⟩

/-- C133, refuted: different numbers come back as the same one, so that an increasing grid need not be increasing when it is read. -/
theorem C133_refuted_grid : ∃ x y : ℚ, flBits 52 x = x ∧ flBits 52 y = y ∧ x < y ∧ backNum 52 x = backNum 52 y := by
  have h1 : sixValue 1234561 = 123456 * 10 := by
    rw [backNum_large (m := 123456) (by norm_num) (by norm_num) (by norm_num [abs_lt]) (by norm_num)]
    norm_num
  have h2 : sixValue 1234562 = 123456 * 10 := by
    rw [backNum_large (m := 123456) (by norm_num) (by norm_num) (by norm_num [abs_lt]) (by norm_num)]
    norm_num
  have e : ∀ z : ℤ, |z| ≤ 2 ^ 53 → flBits 52 (z : ℚ) = z := by
    intro z hz
    have := flBits_exact 52 (e := 0) (m := z) hz
    simpa using this
  have e1 := e 1234561 (by norm_num)
  have e2 := e 1234562 (by norm_num)
  push_cast at e1 e2
  exact ⟨1234561, 1234562, e1, e2, by norm_num, by rw [backNum, backNum, h1, h2]⟩

/-! ### files -/

/-- A finite number. -/
def FiniteNum : FNum → Prop
  | .fin _ => True
  | _ => False

/-- What is read where a number was written. -/
def backF (p : ℕ) : FNum → ℚ
  | .fin x => backNum p x
  | _ => 0

theorem shaped_mono {α : Type} {P Q : α → Prop} (h : ∀ x, P x → Q x) {v : Var α} (hv : Shaped P v) : Shaped Q v := by
  cases hv with
  | mat n k rows h1 h2 h3 h4 h5 h6 => exact .mat n k rows h1 h2 h3 h4 h5 (fun r hr x hx => h x (h6 r hr x hx))
  | attr d n x h1 h2 => exact .attr d n x h1 (h x h2)
  | str n v h1 h2 => exact .str n v h1 h2

theorem finite_reads (p : ℕ) (x : FNum) (h : FiniteNum x) : LineReadsAs numWriter.fmt (numCodec p) x (backF p x) := by
  cases x with
  | fin q => exact C133_text p q
  | inf s => cases h
  | nan s => cases h

/-- C133: a file of finite numbers opens, and holds under each name the first array written under it, each number replaced by what comes
back. -/
theorem C133_load (p : ℕ) (vs : List (Var FNum)) (h : ∀ v ∈ vs, Shaped FiniteNum v) :
    ∃ st, openRead (numCodec p) (writeAll numWriter vs) = .ok st ∧
      ∀ n, getDoubles st n = (vs.findSome? (matrixOf n)).map (fun m => ⟨m.nrows, m.ncols, m.vals.map (List.map (backF p))⟩) := by
  refine ⟨_, load_all_in numWriter (numCodec p) (backF p) vs ⟨[], []⟩
    (fun v hv => shaped_mono (fun x hx => finite_reads p x hx) (h v hv)), fun n => ?_⟩
  have := (lookup_fold n (vs.map (mapVar (backF p))) ⟨[], []⟩).1
  rw [findSome_mapVar] at this
  exact this

/-- C133: what has been read from a file and is written again gives the same file. -/
theorem C133_rewrite (p : ℕ) (hp : 23 ≤ p) (vs : List (Var FNum)) (h : ∀ v ∈ vs, Shaped FiniteNum v) :
    writeAll numWriter (vs.map (mapVar fun x => FNum.fin (backF p x))) = writeAll numWriter vs := by
  have one : ∀ x, FiniteNum x → outNum (.fin (backF p x)) = outNum x := by
    intro x hx
    cases x with
    | fin q => exact (C133_stable p hp q).1
    | inf s => cases hx
    | nan s => cases hx
  have row : ∀ r : List FNum, (∀ x ∈ r, FiniteNum x) → rowText numWriter (r.map fun x => FNum.fin (backF p x)) = rowText numWriter r := by
    intro r hr
    induction r with
    | nil => rfl
    | cons x r ih =>
      have := ih (fun y hy => hr y (by simp [hy]))
      simp only [rowText, List.map_cons, List.flatMap_cons] at this ⊢
      rw [this]
      show outNum (.fin (backF p x)) ++ [' '] ++ _ = outNum x ++ [' '] ++ _
      rw [one x (hr x (by simp))]
  have rws : ∀ rows : List (List FNum), (∀ r ∈ rows, ∀ x ∈ r, FiniteNum x) →
      (rows.map (List.map fun x => FNum.fin (backF p x))).flatMap (fun r => rowText numWriter r ++ ['\n']) =
        rows.flatMap (fun r => rowText numWriter r ++ ['\n']) := by
    intro rows hr
    induction rows with
    | nil => rfl
    | cons r rows ih =>
      rw [List.map_cons, List.flatMap_cons, List.flatMap_cons, ih (fun y hy => hr y (by simp [hy])), row r (hr r (by simp))]
  have var : ∀ v : Var FNum, Shaped FiniteNum v → writeVar numWriter (mapVar (fun x => FNum.fin (backF p x)) v) = writeVar numWriter v := by
    intro v hv
    cases hv with
    | mat n k rows h1 h2 h3 h4 h5 h6 =>
      have e1 := rws rows h6
      clear h1 h2 h3 h4 h5
      unfold mapVar writeVar
      dsimp only
      rw [e1, List.length_map]
    | attr d n x h1 h2 =>
      show _ ++ (_ ++ (outNum (.fin (backF p x)) ++ _)) = _ ++ (_ ++ (outNum x ++ _))
      rw [one x h2]
    | str n v h1 h2 => rfl
  induction vs with
  | nil => rfl
  | cons v vs ih =>
    have i := ih (fun w hw => h w (by simp [hw]))
    unfold writeAll at i ⊢
    rw [List.map_cons, List.flatMap_cons, List.flatMap_cons, i, var v (h v (by simp))]

/-- The numbers of a variable. -/
def numbersOf {α : Type} : Var α → List α
  | .mat _ _ rows => rows.flatten
  | .attr _ _ x => [x]
  | .str _ _ => []

/-- The text of a number that is not finite is not read. -/
theorem word_unread (p : ℕ) (x : FNum) (h : ¬ FiniteNum x) {ws rest : Str} (hws : ∀ ch ∈ ws, isSpaceC ch = true) :
    (numCodec p).read (ws ++ outNum x ++ rest) = none := by
  show (readDec _).map _ = none
  cases x with
  | fin q => exact absurd trivial h
  | inf s =>
    have := readDec_word (w := "nf".toList) (rest := rest) (c := 'i') hws s (by decide) (by decide) (by decide) (by decide) (by decide)
    rw [show outNum (.inf s) = (if s then ['-'] else []) ++ ('i' :: "nf".toList) from rfl, this]
    rfl
  | nan s =>
    have := readDec_word (w := "an".toList) (rest := rest) (c := 'n') hws s (by decide) (by decide) (by decide) (by decide) (by decide)
    rw [show outNum (.nan s) = (if s then ['-'] else []) ++ ('n' :: "an".toList) from rfl, this]
    rfl

theorem outNum_line (x : FNum) : '\n' ∉ outNum x := by
  cases x with
  | fin q => exact (C133_text 52 q).1
  | inf s => cases s <;> decide
  | nan s => cases s <;> decide

theorem readRow_unread (p : ℕ) (row : List FNum) (h : ∃ x ∈ row, ¬ FiniteNum x) :
    ∀ ws : Str, (∀ ch ∈ ws, isSpaceC ch = true) → readRow (numCodec p) row.length (ws ++ rowText numWriter row) = none := by
  induction row with
  | nil => obtain ⟨x, hx, -⟩ := h; cases hx
  | cons x row ih =>
    intro ws hws
    have e : ws ++ rowText numWriter (x :: row) = ws ++ outNum x ++ ' ' :: rowText numWriter row := by
      simp [rowText, numWriter]
    rw [e, List.length_cons, readRow]
    by_cases hx : FiniteNum x
    · have hr := (finite_reads p x hx).2 ws (' ' :: rowText numWriter row) hws (.inr ⟨_, rfl⟩)
      have hr' : (numCodec p).read (ws ++ outNum x ++ ' ' :: rowText numWriter row) = some (backF p x, ' ' :: rowText numWriter row) := hr
      rw [hr']
      simp only
      have h' : ∃ y ∈ row, ¬ FiniteNum y := by
        obtain ⟨y, hy, hn⟩ := h
        rcases List.mem_cons.1 hy with rfl | hy
        · exact absurd hx hn
        · exact ⟨y, hy, hn⟩
      have := ih h' [' '] blank_space
      rw [List.singleton_append] at this
      rw [this]
      rfl
    · rw [word_unread p x hx hws]

theorem readRows_unread (p : ℕ) (ncols : ℕ) (rows : List (List FNum)) (hlen : ∀ r ∈ rows, r.length = ncols)
    (h : ∃ r ∈ rows, ∃ x ∈ r, ¬ FiniteNum x) (rest : List Str) :
    readRows (numCodec p) ncols rows.length (rows.map (rowText numWriter) ++ rest) = none := by
  induction rows with
  | nil => obtain ⟨r, hr, -⟩ := h; cases hr
  | cons r rows ih =>
    rw [List.length_cons, readRows]
    simp only [List.map_cons, List.cons_append, List.headD_cons, List.tail_cons]
    by_cases hr : ∃ x ∈ r, ¬ FiniteNum x
    · have := readRow_unread p r hr [] (by intro c hc; cases hc)
      rw [List.nil_append, hlen r (by simp)] at this
      rw [this]
    · push Not at hr
      have := readRow_as numWriter (numCodec p) (backF p) r (fun x hx => (finite_reads p x (hr x hx)).2) [] (by intro c hc; cases hc)
      rw [List.nil_append, hlen r (by simp)] at this
      rw [this]
      simp only
      have h' : ∃ r ∈ rows, ∃ x ∈ r, ¬ FiniteNum x := by
        obtain ⟨y, hy, x, hx, hn⟩ := h
        rcases List.mem_cons.1 hy with rfl | hy
        · exact absurd (hr x hx) hn
        · exact ⟨y, hy, x, hx, hn⟩
      rw [ih (fun r hr => hlen r (by simp [hr])) h']
      rfl

theorem load_unread (p : ℕ) (v : Var FNum) (hv : Shaped (fun _ => True) v) (h : ∃ x ∈ numbersOf v, ¬ FiniteNum x) (s : Str) (st : Store ℚ) :
    loadLines (numCodec p) (lines (writeVar numWriter v ++ s)) st = .error := by
  cases hv with
  | mat n ncols rows hn hne hlr hlc hrect hex =>
    have e : writeVar numWriter (.mat n ncols rows) ++ s =
        ("@matrix ".toList ++ n ++ ' ' :: (natText rows.length ++ ' ' :: natText ncols)) ++ '\n' ::
        (rows.flatMap (fun r => rowText numWriter r ++ ['\n']) ++ ([] ++ '\n' :: s)) :=
      text_mat _ _ _ _ _ _
    obtain ⟨-, hnl, -⟩ := header_matrix hn hlr hlc
    have h' : ∃ r ∈ rows, ∃ x ∈ r, ¬ FiniteNum x := by
      obtain ⟨x, hx, hf⟩ := h
      obtain ⟨r, hr, hxr⟩ := List.mem_flatten.1 hx
      exact ⟨r, hr, x, hxr, hf⟩
    rw [e, lines_newline _ _ hnl, lines_rows_line numWriter rows (fun r hr x hx => outNum_line x), lines_newline [] s (by simp),
      loadLines_matrix (numCodec p) hn hlr hlc, if_neg (by simpa using hne), readRows_unread p ncols rows hrect h']
  | attr d n x hn hex =>
    have e := write_attr numWriter d n x s
    obtain ⟨-, hnl, -⟩ := header_matrix (r := 1) (k := 1) hn (by decide) (by decide)
    rw [e, lines_newline _ _ hnl, lines_newline (numWriter.fmt x) _ (outNum_line x), lines_newline [] s (by simp),
      loadLines_matrix (numCodec p) hn (by decide) (by decide), if_neg (by decide)]
    have hrow : readRows (numCodec p) 1 1 (numWriter.fmt x :: [] :: lines s) = none := by
      have hx : ¬ FiniteNum x := by
        obtain ⟨y, hy, hf⟩ := h
        simp only [numbersOf, List.mem_cons, List.not_mem_nil, or_false] at hy
        rwa [hy] at hf
      have := word_unread p x hx (ws := []) (rest := []) (by intro c hc; cases hc)
      rw [List.nil_append, List.append_nil] at this
      have this' : (numCodec p).read (numWriter.fmt x) = none := this
      simp only [readRows, readRow, List.headD_cons, this']
    rw [hrow]
  | str n v hn hlv =>
    obtain ⟨x, hx, -⟩ := h
    cases hx

theorem shaped_finite {v : Var FNum} (hv : Shaped (fun _ => True) v) (h : ∀ x ∈ numbersOf v, FiniteNum x) : Shaped FiniteNum v := by
  cases hv with
  | mat n k rows h1 h2 h3 h4 h5 h6 =>
    exact .mat n k rows h1 h2 h3 h4 h5 (fun r hr x hx => h x (List.mem_flatten.2 ⟨r, hr, hx⟩))
  | attr d n x h1 h2 => exact .attr d n x h1 (h x (by simp [numbersOf]))
  | str n v h1 h2 => exact .str n v h1 h2

/-- C133, refuted: a file with an infinite number, or one that is not a number, anywhere in it cannot be opened. -/
theorem C133_refuted_nonfinite (p : ℕ) (vs : List (Var FNum)) (h : ∀ v ∈ vs, Shaped (fun _ => True) v)
    (hn : ∃ v ∈ vs, ∃ x ∈ numbersOf v, ¬ FiniteNum x) : openRead (numCodec p) (writeAll numWriter vs) = .error := by
  suffices ∀ st, loadLines (numCodec p) (lines (writeAll numWriter vs)) st = .error from this _
  induction vs with
  | nil => obtain ⟨v, hv, -⟩ := hn; cases hv
  | cons v vs ih =>
    intro st
    rw [writeAll, List.flatMap_cons]
    by_cases hv : ∃ x ∈ numbersOf v, ¬ FiniteNum x
    · exact load_unread p v (h v (by simp)) hv _ st
    · push Not at hv
      rw [load_var_as numWriter (numCodec p) (backF p) v
        (shaped_mono (fun x hx => finite_reads p x hx) (shaped_finite (h v (by simp)) hv))]
      apply ih (fun w hw => h w (by simp [hw]))
      obtain ⟨w, hw, hx⟩ := hn
      rcases List.mem_cons.1 hw with rfl | hw
      · obtain ⟨x, hx, hf⟩ := hx
        exact absurd (hv x hx) hf
      · exact ⟨w, hw, hx⟩

/-- C133: a file opens exactly if all its numbers are finite. -/
theorem C133_opens_iff (p : ℕ) (vs : List (Var FNum)) (h : ∀ v ∈ vs, Shaped (fun _ => True) v) :
    (∃ st, openRead (numCodec p) (writeAll numWriter vs) = .ok st) ↔ ∀ v ∈ vs, ∀ x ∈ numbersOf v, FiniteNum x := by
  constructor
  · rintro ⟨st, hst⟩
    by_contra hc
    push Not at hc
    rw [C133_refuted_nonfinite p vs h hc] at hst
    cases hst
  · intro hf
    obtain ⟨st, hst, -⟩ := C133_load p vs (fun v hv => shaped_finite (h v hv) (hf v hv))
    exact ⟨st, hst⟩

/-- C133: the reader reads integers as C132 supposes. -/
theorem C133_reads_integers : ReadsInts (numCodec 52) := by
  intro z ws rest hws hr
  obtain ⟨h1, h2, h3⟩ := natText_digits z.natAbs
  have := readDec_text (ip := natText z.natAbs) (fp := []) (x := []) (decide (z < 0)) hws h1 h2 (by simp) .none hr
  have e : pointText (natText z.natAbs) [] = natText z.natAbs := by
    have : stripZeros [] = [] := by decide
    simp [pointText, this]
  rw [List.append_nil, e, List.append_nil, h3] at this
  have e2 : intOut z = (if decide (z < 0) then ['-'] else []) ++ natText z.natAbs := by simp [intOut]
  show (readDec _).map _ = _
  rw [e2, this]
  simp only [Option.map_some, List.length_nil]
  congr 3
  have : ((z.natAbs : ℕ) : ℚ) = |(z : ℚ)| := by
    rw [← Int.cast_natCast, Int.natCast_natAbs]
    push_cast
    rfl
  rw [this]
  by_cases hz : z < 0
  · have : (z : ℚ) < 0 := by exact_mod_cast hz
    rw [abs_of_neg this]
    simp [hz]
  · have : (0 : ℚ) ≤ (z : ℚ) := by exact_mod_cast not_lt.mp hz
    rw [abs_of_nonneg this]
    simp [hz]

/-- C133: the numbers for which the round trip of C21 holds are the numbers that come back. -/
theorem C133_exact_iff (p : ℕ) (x : ℚ) : Exact (numCodec p) x ↔ backNum p x = x := by
  constructor
  · rintro ⟨-, h⟩
    have h1 := h [] [] (by intro c hc; cases hc) (.inl rfl)
    have h2 := (C133_text p x).2 [] [] (by intro c hc; cases hc) (.inl rfl)
    have h3 : some (backNum p x, ([] : Str)) = some (x, []) := h2.symm.trans h1
    simpa using h3
  · intro h
    have := C133_text p x
    rw [h] at this
    exact this

/-! ### examples -/

/-- The texts of some numbers. -/
example : sixText 123457 6 = "1.23457e+06".toList ∧ sixText 123456 5 = "123456".toList ∧ sixText 250000 2 = "250".toList ∧
    sixText 314159 0 = "3.14159".toList ∧ sixText 100000 0 = "1".toList ∧ sixText 125000 (-3) = "0.00125".toList ∧
    sixText 123456 (-4) = "0.000123456".toList ∧ sixText 100000 (-5) = "1e-05".toList ∧ sixText 160218 (-19) = "1.60218e-19".toList ∧
    sixText 179769 308 = "1.79769e+308".toList := by decide +kernel

/-- Texts that are read, and texts that are not. -/
example : readDec "  -1.50e3 7".toList = some (-1500, " 7".toList) ∧ readDec ".5".toList = some (1 / 2, []) ∧
    readDec "2.E+1x".toList = some (20, ['x']) ∧ readDec "1e".toList = none ∧ readDec "-".toList = none ∧ readDec " inf".toList = none ∧
    readDec "nan".toList = none ∧ readDec "".toList = none := by decide +kernel

/-- The file of `C133_load` with one number. -/
example : openRead (numCodec 52) "@matrix a 1 1\n1.25 \n\n".toList = .ok ⟨[(['a'], ⟨1, 1, [[5 / 4]]⟩)], []⟩ := by
  have h := load_all_in numWriter (numCodec 52) (backF 52) [.mat ['a'] 1 [[.fin (5 / 4)]]] ⟨[], []⟩ (by
    intro v hv
    simp only [List.mem_cons, List.not_mem_nil, or_false] at hv
    subst hv
    refine .mat _ _ _ ⟨by simp, by decide⟩ (by simp) (by decide) (by decide) (by simp) ?_
    intro r hr x hx
    simp only [List.mem_cons, List.not_mem_nil, or_false] at hr
    subst hr
    simp only [List.mem_cons, List.not_mem_nil, or_false] at hx
    subst hx
    exact C133_text 52 _)
  have d : sixDigits (5 / 4) = (125000, 0) := sixDigits_eq (by norm_num) (by norm_num) (by norm_num) (by norm_num)
  have t : outNum (.fin (5 / 4)) = "1.25".toList := by
    have : sixText 125000 0 = "1.25".toList := by decide +kernel
    rw [outNum, if_neg (by norm_num), if_neg (by norm_num), d, this]
    rfl
  have b : backNum 52 (5 / 4) = 5 / 4 := by
    rw [C133_same_iff 52 (by norm_num)]
    refine ⟨125, -2, by norm_num, ?_⟩
    have := flBits_exact 52 (e := -2) (m := 5) (by norm_num)
    norm_num at this ⊢
    exact this.symm
  have e : writeAll numWriter [.mat ['a'] 1 [[.fin (5 / 4)]]] = "@matrix a 1 1\n1.25 \n\n".toList := by
    have t' : numWriter.fmt (.fin (5 / 4)) = "1.25".toList := t
    have n1 : natText 1 = ['1'] := by decide +kernel
    unfold writeAll writeVar rowText
    simp only [List.flatMap_cons, List.flatMap_nil, List.append_nil, List.length_cons, List.length_nil, Nat.zero_add, n1, t']
    decide +kernel
  rw [e] at h
  rw [openRead, h]
  simp [mapVar, addVar, emplace, lookup, backF, b]

/-! ### numbers written by other programs -/

/-- A point and digits, or nothing. -/
def FracText (t fp : Str) : Prop := (∀ c ∈ fp, isDigitC c = true) ∧ (t = '.' :: fp ∨ (t = [] ∧ fp = []))

/-- The letter of an exponent, a sign or none, and digits, or nothing. -/
def ExpoText (x : Str) (e : ℤ) : Prop :=
  (x = [] ∧ e = 0) ∨ ∃ c sg ds, (c = 'e' ∨ c = 'E') ∧ IsSign sg ∧ ds ≠ [] ∧ (∀ d ∈ ds, isDigitC d = true) ∧ x = c :: (sg ++ ds) ∧
    e = if sg = ['-'] then -(decVal ds : ℤ) else decVal ds

theorem digits_noSign {ds rest : Str} (h : ∀ d ∈ ds, isDigitC d = true) (hr : rest = [] ∨ ∃ r, rest = ' ' :: r) :
    NoHead (fun c => c == '+' || c == '-') (ds ++ rest) := by
  cases ds with
  | nil =>
    rcases hr with rfl | ⟨r, rfl⟩
    · exact noHead_nil _
    · exact noHead_cons (by decide)
  | cons y ys =>
    have hy := h y (by simp)
    have n1 := digit_ne hy (d := '+') (by decide)
    have n2 := digit_ne hy (d := '-') (by decide)
    exact noHead_cons (by simp [n1, n2])

theorem expPart_expo {x rest : Str} {e : ℤ} (h : ExpoText x e) (hr : rest = [] ∨ ∃ r, rest = ' ' :: r) :
    expPart (x ++ rest) = some (e, rest) := by
  rcases h with ⟨rfl, rfl⟩ | ⟨c, sg, ds, hc, hs, d2, d1, rfl, rfl⟩
  · rcases hr with rfl | ⟨r, rfl⟩ <;> rfl
  · have sp := span_append d1 (space_not_digit hr)
    have ho := optSign_append hs (digits_noSign d1 hr)
    have e1 : (c :: (sg ++ ds)) ++ rest = c :: (sg ++ (ds ++ rest)) := by simp
    rw [e1]
    rcases hc with rfl | rfl <;>
    · rw [expPart]
      simp only [ho, sp.1, sp.2, if_neg d2, signed, decide_eq_true_eq]

theorem expPart_missing {sg rest : Str} {c : Char} (hc : c = 'e' ∨ c = 'E') (hs : IsSign sg) (hr : rest = [] ∨ ∃ r, rest = ' ' :: r) :
    expPart (c :: (sg ++ rest)) = none := by
  have d1 : ∀ d ∈ ([] : Str), isDigitC d = true := by simp
  have sp := span_append d1 (space_not_digit hr)
  have ho := optSign_append hs (digits_noSign d1 hr)
  simp only [List.nil_append] at sp ho
  rcases hc with rfl | rfl <;>
  · rw [expPart]
    simp only [ho, sp.1, if_true]

theorem expo_head {x rest : Str} {e : ℤ} (h : ExpoText x e) (hr : rest = [] ∨ ∃ r, rest = ' ' :: r) :
    NoHead isDigitC (x ++ rest) ∧ NoHead (· == '.') (x ++ rest) := by
  rcases h with ⟨rfl, rfl⟩ | ⟨c, sg, ds, hc, hs, d2, d1, rfl, rfl⟩
  · rcases hr with rfl | ⟨r, rfl⟩
    · exact ⟨noHead_nil _, noHead_nil _⟩
    · exact ⟨noHead_cons (by decide), noHead_cons (by decide)⟩
  · rcases hc with rfl | rfl <;> exact ⟨noHead_cons (by decide), noHead_cons (by decide)⟩

/-- The sign and the digits in front of a text that does not go on with one. -/
theorem readDec_parts {ws sg ip t fp y : Str} (hws : ∀ c ∈ ws, isSpaceC c = true) (hsg : IsSign sg)
    (hi : ∀ c ∈ ip, isDigitC c = true) (ht : FracText t fp) (hy1 : NoHead isDigitC y) (hy2 : NoHead (· == '.') y)
    (hsp : NoHead isSpaceC (sg ++ (ip ++ (t ++ y)))) (hsn : NoHead (fun c => c == '+' || c == '-') (ip ++ (t ++ y))) :
    readDec (ws ++ (sg ++ (ip ++ (t ++ y)))) =
      if ip = [] ∧ fp = [] then none
      else (expPart y).map fun r => ((if sg = ['-'] then -1 else 1) * (decVal (ip ++ fp) : ℚ) * 10 ^ (r.1 - (fp.length : ℤ)), r.2) := by
  obtain ⟨hfd, ht⟩ := ht
  have ntl : NoHead isDigitC (t ++ y) := by
    rcases ht with rfl | ⟨rfl, rfl⟩
    · exact noHead_cons not_digit_dot
    · exact hy1
  have hf : fracPart (t ++ y) = (fp, y) := by
    rcases ht with rfl | ⟨rfl, rfl⟩
    · have sp := span_append hfd hy1
      simp only [List.cons_append, fracPart, sp.1, sp.2]
    · exact fracPart_none hy2
  have s1 := span_append hws hsp
  have s2 := span_append hi ntl
  have ho := optSign_append hsg hsn
  rw [readDec]
  simp only [s1.2, ho, s2.1, s2.2, hf, decide_eq_true_eq]
  split_ifs
  · rfl
  all_goals cases expPart y <;> rfl

theorem parts_head {sg ip t fp y : Str} (hsg : IsSign sg) (hi : ∀ c ∈ ip, isDigitC c = true) (ht : FracText t fp)
    (hne : ip ≠ [] ∨ fp ≠ []) :
    NoHead isSpaceC (sg ++ (ip ++ (t ++ y))) ∧ NoHead (fun c => c == '+' || c == '-') (ip ++ (t ++ y)) := by
  have key : ∀ q : Char → Bool, (∀ c, isDigitC c = true → q c = false) → q '.' = false → NoHead q (ip ++ (t ++ y)) := by
    intro q hq hd
    cases ip with
    | cons a b => exact noHead_cons (hq a (hi a (by simp)))
    | nil =>
      rcases ht.2 with rfl | ⟨rfl, rfl⟩
      · exact noHead_cons hd
      · simp at hne
  refine ⟨sign_noSpace hsg (key isSpaceC digit_not_space (by decide)), key _ (fun c hc => ?_) (by decide)⟩
  have n1 := digit_ne hc (d := '+') (by decide)
  have n2 := digit_ne hc (d := '-') (by decide)
  simp [n1, n2]

/-- C133: any decimal is read as the number nearest to its value: blanks, a sign, digits, a point, digits and an exponent with `e` or `E`,
each of them optional as long as there is a digit before or after the point. -/
theorem C133_read (p : ℕ) {ws sg ip t fp x rest : Str} {e : ℤ} (hws : ∀ c ∈ ws, isSpaceC c = true) (hsg : IsSign sg)
    (hi : ∀ c ∈ ip, isDigitC c = true) (ht : FracText t fp) (hne : ip ≠ [] ∨ fp ≠ []) (hx : ExpoText x e)
    (hr : rest = [] ∨ ∃ r, rest = ' ' :: r) :
    (numCodec p).read (ws ++ (sg ++ (ip ++ (t ++ (x ++ rest))))) =
      some (flBits p ((if sg = ['-'] then -1 else 1) * (decVal ip + decVal fp / 10 ^ fp.length) * 10 ^ e), rest) := by
  obtain ⟨h1, h2⟩ := expo_head hx hr
  obtain ⟨h3, h4⟩ := parts_head (y := x ++ rest) hsg hi ht hne
  show (readDec _).map _ = _
  rw [readDec_parts hws hsg hi ht h1 h2 h3 h4, if_neg (by tauto), expPart_expo hx hr]
  simp only [Option.map_some]
  congr 3
  rw [decVal_app, zpow_sub₀ (by norm_num), zpow_natCast]
  push_cast
  have : (10 : ℚ) ^ fp.length ≠ 0 := pow_ne_zero _ (by norm_num)
  field_simp

/-- C133: a number whose exponent has no digits, and a sign or point without digits, are not numbers. -/
theorem C133_read_none (p : ℕ) {ws sg ip t fp rest : Str} (hws : ∀ c ∈ ws, isSpaceC c = true) (hsg : IsSign sg)
    (hi : ∀ c ∈ ip, isDigitC c = true) (ht : FracText t fp) (hr : rest = [] ∨ ∃ r, rest = ' ' :: r) :
    (∀ c sg', (c = 'e' ∨ c = 'E') → IsSign sg' → (ip ≠ [] ∨ fp ≠ []) →
      (numCodec p).read (ws ++ (sg ++ (ip ++ (t ++ (c :: (sg' ++ rest)))))) = none) ∧
    (sg ++ t ≠ [] → ip = [] → fp = [] → (numCodec p).read (ws ++ (sg ++ (t ++ rest))) = none) := by
  constructor
  · intro c sg' hc hs hne
    obtain ⟨h3, h4⟩ := parts_head (y := c :: (sg' ++ rest)) hsg hi ht hne
    show (readDec _).map _ = _
    rw [readDec_parts hws hsg hi ht (by rcases hc with rfl | rfl <;> exact noHead_cons (by decide))
      (by rcases hc with rfl | rfl <;> exact noHead_cons (by decide)) h3 h4, if_neg (by tauto), expPart_missing hc hs hr]
    rfl
  · rintro hne rfl rfl
    have hrd : NoHead isDigitC rest ∧ NoHead (· == '.') rest ∧ NoHead (fun c => c == '+' || c == '-') rest := by
      rcases hr with rfl | ⟨r, rfl⟩
      · exact ⟨noHead_nil _, noHead_nil _, noHead_nil _⟩
      · exact ⟨noHead_cons (by decide), noHead_cons (by decide), noHead_cons (by decide)⟩
    have h3 : NoHead isSpaceC (sg ++ ([] ++ (t ++ rest))) := by
      rcases ht.2 with rfl | ⟨rfl, -⟩
      · exact sign_noSpace hsg (noHead_cons (by decide))
      · rcases hsg with rfl | rfl | rfl
        · simp at hne
        · exact noHead_cons (by decide)
        · exact noHead_cons (by decide)
    have h4 : NoHead (fun c => c == '+' || c == '-') ([] ++ (t ++ rest)) := by
      rcases ht.2 with rfl | ⟨rfl, -⟩
      · exact noHead_cons (by decide)
      · exact hrd.2.2
    show (readDec _).map _ = _
    have := readDec_parts hws hsg hi ht hrd.1 hrd.2.1 h3 h4
    rw [List.nil_append] at this
    rw [this, if_pos ⟨rfl, rfl⟩]
    rfl

/-- A number without integer part and with a large letter. -/
example (p : ℕ) : (numCodec p).read "  -.25E+1 x".toList = some (flBits p (-(5 / 2)), " x".toList) := by
  have := C133_read p (ws := "  ".toList) (sg := ['-']) (ip := []) (t := ".25".toList) (fp := "25".toList) (x := "E+1".toList)
    (rest := " x".toList) (e := 1) (by decide) (Or.inr (Or.inr rfl)) (by simp) ⟨by decide, Or.inl rfl⟩ (Or.inr (by decide))
    (Or.inr ⟨'E', ['+'], ['1'], by decide, Or.inr (Or.inl rfl), by decide, by decide, rfl, by decide⟩) (Or.inr ⟨['x'], rfl⟩)
  have hv : decVal "25".toList = 25 := by decide
  have hl : "25".toList.length = 2 := by decide
  rw [hv, hl] at this
  refine Eq.trans (by rfl) (this.trans ?_)
  congr 3
  norm_num [decVal]

end Softlib
