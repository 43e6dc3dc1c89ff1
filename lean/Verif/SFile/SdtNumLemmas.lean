/-
Lemmas on the decimal texts of floating point numbers.
-/
import Verif.SFile.SdtNumModel
import Verif.SFile.SdtTextLemmas
import Mathlib.Tactic.Linarith
import Mathlib.Tactic.NormNum
import Mathlib.Tactic.Ring
import Mathlib.Tactic.FieldSimp
import Mathlib.Tactic.Positivity

namespace Softlib.SFile
open Softlib.Config Softlib.General

/-! ### digits -/

theorem decVal_app (a b : Str) : decVal (a ++ b) = decVal a * 10 ^ b.length + decVal b := by
  induction b using List.reverseRecOn with
  | nil => simp [decVal]
  | append_singleton b c ih =>
    rw [← List.append_assoc, decVal_append, decVal_append, ih]
    simp only [List.length_append, List.length_cons, List.length_nil, pow_succ]
    ring

theorem decVal_zeros (k : ℕ) : decVal (List.replicate k '0') = 0 := by
  induction k with
  | zero => rfl
  | succ k ih =>
    rw [List.replicate_succ', decVal_append, ih]
    rfl

theorem strip_spec (s : Str) : ∃ k, s = stripZeros s ++ List.replicate k '0' := by
  refine ⟨(s.reverse.takeWhile (· == '0')).length, ?_⟩
  have h1 : s.reverse = s.reverse.takeWhile (· == '0') ++ s.reverse.dropWhile (· == '0') := List.takeWhile_append_dropWhile.symm
  have h2 : s.reverse.takeWhile (· == '0') = List.replicate (s.reverse.takeWhile (· == '0')).length '0' := by
    rw [List.eq_replicate_iff]
    refine ⟨rfl, fun c hc => ?_⟩
    have := mem_takeWhile (· == '0') s.reverse c hc
    simpa using this
  have h3 : s = (s.reverse.dropWhile (· == '0')).reverse ++ (s.reverse.takeWhile (· == '0')).reverse := by
    rw [← List.reverse_append, List.takeWhile_append_dropWhile, List.reverse_reverse]
  conv_lhs => rw [h3]
  rw [stripZeros]
  congr 1
  rw [h2, List.reverse_replicate, List.length_replicate]

theorem strip_digits {s : Str} (h : ∀ c ∈ s, isDigitC c = true) : ∀ c ∈ stripZeros s, isDigitC c = true := by
  obtain ⟨k, hk⟩ := strip_spec s
  intro c hc
  exact h c (by rw [hk]; exact List.mem_append_left _ hc)

/-- Zeros at the end of the fraction do not matter. -/
theorem strip_val (ip fp : Str) :
    (decVal (ip ++ stripZeros fp) : ℚ) * 10 ^ (-((stripZeros fp).length : ℤ)) = decVal (ip ++ fp) * 10 ^ (-(fp.length : ℤ)) := by
  obtain ⟨k, hk⟩ := strip_spec fp
  have e1 : decVal (ip ++ fp) = decVal (ip ++ stripZeros fp) * 10 ^ k := by
    conv_lhs => rw [hk]
    rw [← List.append_assoc, decVal_app, decVal_zeros, List.length_replicate]
    ring
  have e2 : (fp.length : ℤ) = (stripZeros fp).length + k := by
    conv_lhs => rw [hk]
    simp
  rw [e1, e2, neg_add, zpow_add₀ (by norm_num)]
  push_cast
  rw [zpow_neg _ (k : ℤ), zpow_natCast]
  field_simp

theorem natText_length {m : ℕ} (h1 : 10 ^ 5 ≤ m) (h2 : m < 10 ^ 6) : (natText m).length = 6 := by
  have step : ∀ n, 10 ≤ n → (natText n).length = (natText (n / 10)).length + 1 := by
    intro n hn
    conv_lhs => rw [natText]
    rw [dif_neg (by omega)]
    simp
  have base : ∀ n, n < 10 → (natText n).length = 1 := by
    intro n hn
    rw [natText, dif_pos hn]
    rfl
  rw [step m (by omega), step (m / 10) (by omega), step (m / 10 / 10) (by omega), step (m / 10 / 10 / 10) (by omega),
    step (m / 10 / 10 / 10 / 10) (by omega), base _ (by omega)]

/-! ### reading -/

/-- An exponent as it is written, or none. -/
inductive ExpIs : Str → ℤ → Prop where
  | none : ExpIs [] 0
  | some (e : ℤ) : ExpIs (expText e) e

theorem not_digit_e : isDigitC 'e' = false := by decide
theorem not_digit_dot : isDigitC '.' = false := by decide

theorem expPart_text {x rest : Str} {e : ℤ} (h : ExpIs x e) (hr : rest = [] ∨ ∃ r, rest = ' ' :: r) :
    expPart (x ++ rest) = some (e, rest) := by
  cases h with
  | none =>
    rcases hr with rfl | ⟨r, rfl⟩ <;> rfl
  | some =>
    obtain ⟨h1, h2, h3⟩ := natText_digits e.natAbs
    set ds := (if e.natAbs < 10 then '0' :: natText e.natAbs else natText e.natAbs) with hds
    have d1 : ∀ c ∈ ds, isDigitC c = true := by
      intro c hc
      rw [hds] at hc
      split_ifs at hc
      · rcases List.mem_cons.1 hc with rfl | hc
        · decide
        · exact h2 c hc
      · exact h2 c hc
    have d2 : ds ≠ [] := by
      rw [hds]; split_ifs
      · simp
      · exact h1
    have d3 : decVal ds = e.natAbs := by
      rw [hds]; split_ifs
      · rw [show '0' :: natText e.natAbs = ['0'] ++ natText e.natAbs from rfl, decVal_app, h3]
        simp [decVal]
      · exact h3
    have sp := span_append d1 (space_not_digit hr)
    have hs : IsSign [if e < 0 then '-' else '+'] := by
      by_cases h : e < 0
      · simp [h, IsSign]
      · simp [h, IsSign]
    have hb : NoHead (fun c => c == '+' || c == '-') (ds ++ rest) := by
      intro c r eq
      cases hd : ds with
      | nil => exact absurd hd d2
      | cons y ys =>
        rw [hd] at eq
        injection eq with e1 e2
        have := d1 y (by rw [hd]; simp)
        rw [e1] at this
        have n1 := digit_ne this (d := '+') (by decide)
        have n2 := digit_ne this (d := '-') (by decide)
        simp [n1, n2]
    have ho := optSign_append hs hb
    have e1 : expText e ++ rest = 'e' :: ([if e < 0 then '-' else '+'] ++ (ds ++ rest)) := by
      simp [expText, hds]
    rw [e1, expPart]
    simp only [ho, sp.1, sp.2, if_neg d2, signed, d3]
    congr 2
    by_cases h : e < 0
    · simp only [h, if_true, decide_true]; omega
    · simp only [h, if_false]
      rw [if_neg (by decide)]; omega

theorem exp_head {x rest : Str} {e : ℤ} (h : ExpIs x e) (hr : rest = [] ∨ ∃ r, rest = ' ' :: r) :
    NoHead isDigitC (x ++ rest) ∧ NoHead (· == '.') (x ++ rest) := by
  cases h with
  | none =>
    rcases hr with rfl | ⟨r, rfl⟩
    · exact ⟨noHead_nil _, noHead_nil _⟩
    · exact ⟨noHead_cons (by decide), noHead_cons (by decide)⟩
  | some => exact ⟨noHead_cons (by decide), noHead_cons (by decide)⟩

theorem fracPart_none {s : Str} (h : NoHead (· == '.') s) : fracPart s = ([], s) := by
  unfold fracPart
  split
  · exact absurd (h '.' _ rfl) (by decide)
  · rfl

/-- Reading of what `%g` makes of an integer part, a fraction and an exponent. -/
theorem readDec_text {ws ip fp x rest : Str} {e : ℤ} (neg : Bool) (hws : ∀ c ∈ ws, isSpaceC c = true) (h1 : ip ≠ [])
    (h2 : ∀ c ∈ ip, isDigitC c = true) (h3 : ∀ c ∈ fp, isDigitC c = true) (hx : ExpIs x e)
    (hr : rest = [] ∨ ∃ r, rest = ' ' :: r) :
    readDec (ws ++ ((if neg then ['-'] else []) ++ (pointText ip fp ++ x)) ++ rest) =
      some ((if neg then -1 else 1) * (decVal (ip ++ fp) : ℚ) * 10 ^ (e - (fp.length : ℤ)), rest) := by
  set tl := (if stripZeros fp = [] then [] else '.' :: stripZeros fp) ++ (x ++ rest) with htl
  obtain ⟨hx1, hx2⟩ := exp_head hx hr
  have ntl : NoHead isDigitC tl := by
    rw [htl]; split_ifs
    · exact hx1
    · exact noHead_cons not_digit_dot
  have hf : fracPart tl = (stripZeros fp, x ++ rest) := by
    rw [htl]; split_ifs with h
    · rw [h]; exact fracPart_none hx2
    · have sp := span_append (strip_digits h3) hx1
      simp only [List.cons_append, fracPart, sp.1, sp.2]
  have hsg : IsSign (if neg then ['-'] else []) := by cases neg <;> simp [IsSign]
  have headip : ∀ q : Char → Bool, (∀ c, isDigitC c = true → q c = false) → NoHead q (ip ++ tl) := by
    intro q hq c r eq
    cases hd : ip with
    | nil => exact absurd hd h1
    | cons y ys =>
      rw [hd] at eq
      injection eq with e1 e2
      rw [← e1]
      exact hq y (h2 y (by rw [hd]; simp))
  have n1 := sign_noSpace hsg (headip isSpaceC digit_not_space)
  have n2 := headip (fun c => c == '+' || c == '-') (fun c hc => by
    have n1 := digit_ne hc (d := '+') (by decide)
    have n2 := digit_ne hc (d := '-') (by decide)
    simp [n1, n2])
  have s1 := span_append hws n1
  have s2 := span_append h2 ntl
  have ho := optSign_append hsg n2
  have hneg : decide ((if neg then ['-'] else []) = ['-']) = neg := by cases neg <;> decide
  have et : ws ++ ((if neg then ['-'] else []) ++ (pointText ip fp ++ x)) ++ rest = ws ++ ((if neg then ['-'] else []) ++ (ip ++ tl)) := by
    simp [pointText, htl]
  rw [et, readDec]
  simp only [s1.2, ho, s2.1, s2.2, hf, hneg]
  rw [if_neg (by simp [h1]), expPart_text hx hr]
  simp only
  have hv := strip_val ip fp
  rw [sub_eq_add_neg, sub_eq_add_neg, zpow_add₀ (by norm_num), zpow_add₀ (by norm_num)]
  congr 2
  have : (decVal (ip ++ stripZeros fp) : ℚ) * (10 ^ e * 10 ^ (-((stripZeros fp).length : ℤ))) =
    decVal (ip ++ fp) * (10 ^ e * 10 ^ (-(fp.length : ℤ))) := by
    calc _ = 10 ^ e * ((decVal (ip ++ stripZeros fp) : ℚ) * 10 ^ (-((stripZeros fp).length : ℤ))) := by ring
      _ = _ := by rw [hv]; ring
  rw [mul_assoc, this, mul_assoc]

/-- Reading of `%g`: six digits and an exponent. -/
theorem readDec_six {ws rest : Str} {m : ℕ} (e : ℤ) (neg : Bool) (hws : ∀ c ∈ ws, isSpaceC c = true)
    (h1 : 10 ^ 5 ≤ m) (h2 : m < 10 ^ 6) (hr : rest = [] ∨ ∃ r, rest = ' ' :: r) :
    readDec (ws ++ ((if neg then ['-'] else []) ++ sixText m e) ++ rest) =
      some ((if neg then -1 else 1) * (m : ℚ) * 10 ^ (e - 5), rest) := by
  have hl := natText_length h1 h2
  obtain ⟨-, hd, hv⟩ := natText_digits m
  have tk : ∀ k, ∀ c ∈ (natText m).take k, isDigitC c = true := fun k c hc => hd c (List.mem_of_mem_take hc)
  have dr : ∀ k, ∀ c ∈ (natText m).drop k, isDigitC c = true := fun k c hc => hd c (List.mem_of_mem_drop hc)
  have ne : ∀ k, (natText m).take (k + 1) ≠ [] := by
    intro k h
    have := congrArg List.length h
    rw [List.length_take, hl] at this
    simp at this
  unfold sixText
  simp only
  by_cases c1 : e < -4 ∨ 6 ≤ e
  · rw [if_pos c1, readDec_text neg hws (ne 0) (tk 1) (dr 1) (.some e) hr, List.take_append_drop, hv, List.length_drop, hl]
    norm_num
  · rw [if_neg c1]
    push Not at c1
    by_cases c2 : 0 ≤ e
    · rw [if_pos c2]
      have := readDec_text (x := []) neg hws (ne e.toNat) (tk (e.toNat + 1)) (dr (e.toNat + 1)) .none hr
      rw [List.append_nil, List.take_append_drop, hv, List.length_drop, hl] at this
      rw [this]
      congr 4
      omega
    · rw [if_neg c2]
      have hz : ∀ c ∈ List.replicate (-e - 1).toNat '0' ++ natText m, isDigitC c = true := by
        intro c hc
        rcases List.mem_append.1 hc with hc | hc
        · rw [List.eq_of_mem_replicate hc]; decide
        · exact hd c hc
      have := readDec_text (ip := ['0']) (x := []) neg hws (by simp) (by decide) hz .none hr
      rw [List.append_nil] at this
      rw [this, decVal_app, decVal_app, decVal_zeros, hv]
      simp only [List.length_append, List.length_replicate, hl]
      congr 4
      · simp [decVal]
      · push_cast; omega

theorem natText_line (n : ℕ) : ∀ c ∈ natText n, c ≠ '\n' := by
  rintro c hc rfl
  exact digits_no_newline n hc

theorem pointText_line {ip fp : Str} (h1 : ∀ c ∈ ip, c ≠ '\n') (h2 : ∀ c ∈ fp, c ≠ '\n') : ∀ c ∈ pointText ip fp, c ≠ '\n' := by
  intro c hc
  have hs : ∀ c ∈ stripZeros fp, c ≠ '\n' := by
    obtain ⟨k, hk⟩ := strip_spec fp
    intro c hc
    exact h2 c (by rw [hk]; exact List.mem_append_left _ hc)
  rcases List.mem_append.1 hc with hc | hc
  · exact h1 c hc
  · split_ifs at hc
    · cases hc
    · rcases List.mem_cons.1 hc with rfl | hc
      · decide
      · exact hs c hc

theorem sixText_line (m : ℕ) (e : ℤ) : ∀ c ∈ sixText m e, c ≠ '\n' := by
  have hd := natText_line m
  have tk : ∀ k, ∀ c ∈ (natText m).take k, c ≠ '\n' := fun k c hc => hd c (List.mem_of_mem_take hc)
  have dr : ∀ k, ∀ c ∈ (natText m).drop k, c ≠ '\n' := fun k c hc => hd c (List.mem_of_mem_drop hc)
  unfold sixText
  simp only
  split_ifs
  · intro c hc
    rcases List.mem_append.1 hc with hc | hc
    · exact pointText_line (tk 1) (dr 1) c hc
    · unfold expText at hc
      rcases List.mem_cons.1 hc with rfl | hc
      · decide
      · rcases List.mem_cons.1 hc with rfl | hc
        · split_ifs <;> decide
        · split_ifs at hc
          · rcases List.mem_cons.1 hc with rfl | hc
            · decide
            · exact natText_line _ c hc
          · exact natText_line _ c hc
  · exact pointText_line (tk _) (dr _)
  · apply pointText_line
    · decide
    · intro c hc
      rcases List.mem_append.1 hc with hc | hc
      · rw [List.eq_of_mem_replicate hc]; decide
      · exact hd c hc

theorem readDec_zero {ws rest : Str} (hws : ∀ c ∈ ws, isSpaceC c = true) (hr : rest = [] ∨ ∃ r, rest = ' ' :: r) :
    readDec (ws ++ ['0'] ++ rest) = some (0, rest) := by
  have := readDec_text (ip := ['0']) (fp := []) (x := []) false hws (by simp) (by decide) (by simp) .none hr
  have e : pointText ['0'] [] = ['0'] := by decide
  rw [e] at this
  simp only [Bool.false_eq_true, if_false, List.nil_append, List.append_nil] at this
  rw [this]
  simp [decVal]

/-- A text that begins with a letter is no number. -/
theorem readDec_word {ws w rest : Str} {c : Char} (hws : ∀ c ∈ ws, isSpaceC c = true) (neg : Bool) (h1 : isSpaceC c = false)
    (h2 : isDigitC c = false) (h3 : c ≠ '.') (h4 : c ≠ '+') (h5 : c ≠ '-') :
    readDec (ws ++ ((if neg then ['-'] else []) ++ (c :: w)) ++ rest) = none := by
  have hsg : IsSign (if neg then ['-'] else []) := by cases neg <;> simp [IsSign]
  have n1 := sign_noSpace hsg (noHead_cons (r := w ++ rest) h1)
  have s1 := span_append hws n1
  have ho := optSign_append hsg (noHead_cons (p := fun c => c == '+' || c == '-') (c := c) (r := w ++ rest) (by simp [h4, h5]))
  have s2 := span_append (p := isDigitC) (a := []) (b := c :: (w ++ rest)) (by simp) (noHead_cons h2)
  have et : ws ++ ((if neg then ['-'] else []) ++ (c :: w)) ++ rest = ws ++ ((if neg then ['-'] else []) ++ (c :: (w ++ rest))) := by
    simp
  rw [List.nil_append] at s2
  rw [et, readDec]
  simp only [s1.2, ho, s2.1, s2.2, fracPart_none (noHead_cons (p := (· == '.')) (c := c) (r := w ++ rest) (by simp [h3]))]
  simp

end Softlib.SFile
