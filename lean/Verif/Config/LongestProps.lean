/-
Properties C18 and C19, continued: the characters that numbers are made of, and the longest
prefix taken for a number.
-/
import Verif.Config.SettingProps

namespace Softlib

open Softlib.Config

/-! ### characters -/

theorem char_small {c : Char} (h : c.toNat < 128) (P : Char → Prop) (hp : ∀ n : Fin 128, P (Char.ofNat n)) : P c := by
  have := hp ⟨c.toNat, h⟩
  simp only [Char.ofNat_toNat] at this
  exact this

theorem class_iff (p : Char → Bool) (l : List Char) (hs : ∀ n : Fin 128, p (Char.ofNat n) = true ↔ Char.ofNat n ∈ l)
    (hp : ∀ c, p c = true → c.toNat < 128) (hl : ∀ c ∈ l, c.toNat < 128) (c : Char) : p c = true ↔ c ∈ l := by
  constructor
  · intro h
    exact (char_small (hp c h) (fun c => p c = true ↔ c ∈ l) hs).1 h
  · intro h
    exact (char_small (hl c h) (fun c => p c = true ↔ c ∈ l) hs).2 h

theorem le_toNat {a b : Char} : a ≤ b ↔ a.toNat ≤ b.toNat := Iff.rfl

/-- C18: the digits. -/
theorem C18_digits (c : Char) : isDigitC c = true ↔ c ∈ "0123456789".toList := by
  apply class_iff
  · decide +kernel
  · intro c h
    have := (digit_le.1 h).2
    omega
  · decide +kernel

/-- C18: the blanks skipped in front of a number: space, tab, line feed, carriage return,
vertical tab and form feed. -/
theorem C18_blanks (c : Char) : isSpaceC c = true ↔ c.toNat = 32 ∨ (9 ≤ c.toNat ∧ c.toNat ≤ 13) := by
  constructor
  · intro h
    simp only [isSpaceC, Bool.or_eq_true, beq_iff_eq] at h
    rcases h with ((((rfl | rfl) | rfl) | rfl) | rfl) | rfl <;> decide
  · intro h
    have hc : c.toNat < 128 := by omega
    revert h
    exact char_small hc (fun c => (c.toNat = 32 ∨ (9 ≤ c.toNat ∧ c.toNat ≤ 13)) → isSpaceC c = true) (by decide +kernel)

/-- C19: the digits of hexadecimal numbers, the exponent letters, and the characters allowed
between the parentheses after `nan`. -/
theorem C19_characters (c : Char) :
    (isHexC c = true ↔ c ∈ "0123456789abcdefABCDEF".toList) ∧
    (isExpE c = true ↔ c ∈ "eE".toList) ∧ (isExpP c = true ↔ c ∈ "pP".toList) ∧
    (isNanChar c = true ↔ c ∈ "0123456789_abcdefghijklmnopqrstuvwxyzABCDEFGHIJKLMNOPQRSTUVWXYZ".toList) := by
  have hZ : 'Z'.toNat = 90 := rfl
  have hz : 'z'.toNat = 122 := rfl
  have hF : 'F'.toNat = 70 := rfl
  have hf : 'f'.toNat = 102 := rfl
  refine ⟨?_, ?_, ?_, ?_⟩
  · apply class_iff
    · decide +kernel
    · intro c h
      simp only [isHexC, Bool.or_eq_true, Bool.and_eq_true, decide_eq_true_eq, digit_le, le_toNat, hF, hf] at h
      omega
    · decide +kernel
  · simp [isExpE]
  · simp [isExpP]
  · apply class_iff
    · decide +kernel
    · intro c h
      simp only [isNanChar, Bool.or_eq_true, Bool.and_eq_true, decide_eq_true_eq, digit_le, le_toNat, hZ, hz,
        beq_iff_eq] at h
      rcases h with ((h | h) | h) | h
      · omega
      · omega
      · omega
      · rw [h]; decide
    · decide +kernel

/-- C19: the words are compared without regard to case. -/
theorem C19_case (c : Char) :
    lowerC c = if c ∈ "ABCDEFGHIJKLMNOPQRSTUVWXYZ".toList then Char.ofNat (c.toNat + 32) else c := by
  have : ('A' ≤ c ∧ c ≤ 'Z') ↔ c ∈ "ABCDEFGHIJKLMNOPQRSTUVWXYZ".toList := by
    have := class_iff (fun c => decide ('A' ≤ c ∧ c ≤ 'Z')) "ABCDEFGHIJKLMNOPQRSTUVWXYZ".toList (by decide +kernel) (by
      intro c h
      have hZ : 'Z'.toNat = 90 := rfl
      simp only [decide_eq_true_eq, le_toNat, hZ] at h
      omega) (by decide +kernel) c
    rw [← this]
    simp
  unfold lowerC
  simp only [this]

/-! ### the longest prefix -/

theorem takeWhile_ge {p : Char → Bool} {a : Str} (b : Str) (ha : ∀ c ∈ a, p c = true) :
    a.length ≤ ((a ++ b).takeWhile p).length := by
  induction a with
  | nil => simp
  | cons x a ih =>
    have hx := ha x (by simp)
    have := ih (fun c hc => ha c (by simp [hc]))
    simp [hx]
    exact this

theorem expLen_max {ec : Char → Bool} {x : Str} (h : ExpText ec x) (rest : Str) : x.length ≤ expLen ec (x ++ rest) := by
  rcases h with rfl | ⟨e, sg, ds, rfl, he, hs, hne, hd⟩
  · exact Nat.zero_le _
  · simp only [List.cons_append, expLen, he, if_true]
    have n2 : NoHead (fun c => c == '+' || c == '-') (ds ++ rest) := by
      intro c r e
      cases ds with
      | nil => exact absurd rfl hne
      | cons d ds =>
        injection e with e1 e2
        subst e1
        have := hd d (by simp)
        have h1 : d ≠ '+' := digit_ne this (by decide)
        have h2 : d ≠ '-' := digit_ne this (by decide)
        simp [h1, h2]
    rw [List.append_assoc, optSign_append hs n2]
    have hge := takeWhile_ge rest hd
    have hpos : 0 < ds.length := List.length_pos_iff.2 hne
    have hne' : (ds ++ rest).takeWhile isDigitC ≠ [] := List.length_pos_iff.1 (by omega)
    simp only [hne', if_false, List.length_append, List.length_cons]
    omega

theorem mantLen_max {dig ec : Char → Bool} {s : Str} (h : MantText dig ec s) (hdot : dig '.' = false)
    (hx : ∀ c, ec c = true → dig c = false) (hed : ec '.' = false) (rest : Str) :
    ∃ k, mantLen dig ec (s ++ rest) = some k ∧ s.length ≤ k := by
  obtain ⟨a, b, x, h, ha, hb, he⟩ := h
  have hmax := expLen_max he rest
  rcases h with ⟨rfl, hne, -⟩ | ⟨rfl, hne⟩
  · rcases he with rfl | ⟨e, sg, ds, rfl, hee, hs, hdn, hd⟩
    · have hge := takeWhile_ge rest ha
      simp only [List.append_nil] at hge ⊢
      have hpos : 0 < a.length := List.length_pos_iff.2 hne
      have hne' : (a ++ rest).takeWhile dig ≠ [] := List.length_pos_iff.1 (by omega)
      simp only [mantLen]
      split
      · rw [if_neg (fun h => hne' h.1)]
        exact ⟨_, rfl, by omega⟩
      · rw [if_neg hne']
        exact ⟨_, rfl, by omega⟩
    · obtain ⟨e1, e2⟩ := span_append (b := e :: (sg ++ ds) ++ rest) ha (noHead_cons (hx e hee))
      rw [List.append_assoc]
      simp only [mantLen, e1, e2]
      split
      · rename_i r h
        injection h with h1 h2
        subst h1
        rw [hee] at hed; cases hed
      · rw [if_neg hne]
        refine ⟨_, rfl, ?_⟩
        rw [List.length_append]
        omega
  · obtain ⟨e1, e2⟩ := span_append (b := '.' :: (b ++ (x ++ rest))) ha (noHead_cons hdot)
    rw [show a ++ '.' :: (b ++ x) ++ rest = a ++ '.' :: (b ++ (x ++ rest)) by simp]
    simp only [mantLen, e1, e2]
    rcases he with rfl | ⟨e, sg, ds, rfl, hee, hs, hdn, hd⟩
    · have hge := takeWhile_ge rest hb
      simp only [List.append_nil, List.nil_append] at hge ⊢
      have hne' : ¬ (a = [] ∧ (b ++ rest).takeWhile dig = []) := by
        rintro ⟨h1, h2⟩
        rcases hne with h | h
        · exact h h1
        · have : 0 < b.length := List.length_pos_iff.2 h
          rw [h2] at hge
          simp only [List.length_nil] at hge
          omega
      rw [if_neg hne']
      refine ⟨_, rfl, ?_⟩
      simp only [List.length_append, List.length_cons]
      omega
    · obtain ⟨e3, e4⟩ := span_append (b := e :: (sg ++ ds) ++ rest) hb (noHead_cons (hx e hee))
      rw [e3, e4, if_neg (by rintro ⟨h1, h2⟩; rcases hne with h | h <;> contradiction)]
      refine ⟨_, rfl, ?_⟩
      simp only [List.length_append, List.length_cons] at hmax ⊢
      omega

theorem wordLen_max {s : Str} (h : WordText s) (rest : Str) : ∃ k, wordLen (s ++ rest) = some k ∧ s.length ≤ k := by
  rcases h with h | h | ⟨n, t, rfl, h, ht⟩
  · have hl : s.length = 3 := by have := congrArg List.length h; simpa using this
    have e2 : (s ++ rest).take 3 = s := by rw [← hl]; exact List.take_left
    unfold wordLen
    split
    · exact ⟨8, rfl, by omega⟩
    · rw [e2, if_pos h]
      exact ⟨3, rfl, by omega⟩
  · have hl : s.length = 8 := by have := congrArg List.length h; simpa using this
    have e2 : (s ++ rest).take 8 = s := by rw [← hl]; exact List.take_left
    unfold wordLen
    rw [e2, if_pos h]
    exact ⟨8, rfl, by omega⟩
  · have hl : n.length = 3 := by have := congrArg List.length h; simpa using this
    have e2 : (n ++ t ++ rest).take 3 = n := by rw [List.append_assoc, ← hl]; exact List.take_left
    have e3 : (n ++ t ++ rest).drop 3 = t ++ rest := by rw [List.append_assoc, ← hl]; exact List.drop_left
    have hne : ¬ ((n ++ t ++ rest).take 8).map lowerC = "infinity".toList := by
      intro e
      have := congrArg (List.take 3) e
      rw [← List.map_take, List.take_take, show min 3 8 = 3 from rfl, e2, h] at this
      exact absurd this (by decide)
    unfold wordLen
    rw [if_neg hne, e2, e3, h, if_neg (by decide), if_pos rfl]
    refine ⟨_, rfl, ?_⟩
    rw [List.length_append, hl]
    rcases ht with rfl | ⟨m, rfl, hm⟩
    · simp
    · have e4 : '(' :: (m ++ [')']) ++ rest = '(' :: (m ++ (')' :: rest)) := by simp
      obtain ⟨e1, e2⟩ := span_append hm (noHead_cons (r := rest) (show isNanChar ')' = false by decide))
      rw [e4]
      simp only [nanTail, e1, e2, List.length_cons, List.length_append, List.length_nil]
      omega

theorem bodyLen_max {b : Str} (h : BodyText b) (rest : Str) : ∃ k, bodyLen (b ++ rest) = some k ∧ b.length ≤ k := by
  unfold bodyLen
  rcases h with h | ⟨x, r, rfl, hx, h⟩ | h
  · obtain ⟨k, hk, hle⟩ := mantLen_max h (by decide) hex_not_e (by decide) rest
    cases hh : hexLen (b ++ rest) with
    | none => rw [hk]; exact ⟨k, rfl, hle⟩
    | some m =>
      refine ⟨m, rfl, ?_⟩
      generalize b ++ rest = q at hk hh
      unfold hexLen at hh
      split at hh
      · rename_i x r
        split at hh
        · rename_i hx
          have hm : 2 ≤ m := by
            cases hq : mantLen isHexC isExpP r with
            | none => rw [hq] at hh; cases hh
            | some j => rw [hq, Option.map_some, Option.some.injEq] at hh; omega
          have hxd : isDigitC x = false := by rcases hx with rfl | rfl <;> decide
          have hxe : isExpE x = false := by rcases hx with rfl | rfl <;> decide
          have hxdot : x ≠ '.' := by rcases hx with rfl | rfl <;> decide
          have e1 : ('0' :: x :: r).takeWhile isDigitC = ['0'] := by
            rw [List.takeWhile_cons, show isDigitC '0' = true by decide, List.takeWhile_cons, hxd]; rfl
          have e2 : ('0' :: x :: r).dropWhile isDigitC = x :: r := by
            rw [List.dropWhile_cons, show isDigitC '0' = true by decide, List.dropWhile_cons, hxd]; rfl
          simp only [mantLen, e1, e2] at hk
          split at hk
          · rename_i h; injection h with h1 h2; exact absurd h1 hxdot
          · simp [expLen, hxe] at hk
            omega
        · cases hh
      · cases hh
  · obtain ⟨k, hk, hle⟩ := mantLen_max h (by decide) hex_not_p (by decide) rest
    simp only [List.cons_append, hexLen, hx, if_true, hk, Option.map_some, Option.some_or, List.length_cons]
    exact ⟨_, rfl, by omega⟩
  · obtain ⟨k, hk, hle⟩ := wordLen_max h rest
    obtain ⟨a, b', c, t, rfl, ha, -⟩ := word_three h
    obtain ⟨f1, f2, f3, f4, f5, f6⟩ := small_facts ha
    have hh : hexLen (a :: b' :: c :: t ++ rest) = none := by
      unfold hexLen
      split
      · rename_i h; injection h with h1 h2; exact absurd h1 f4
      · rfl
    have hm : mantLen isDigitC isExpE (a :: b' :: c :: t ++ rest) = none := by
      simp only [mantLen, List.cons_append, List.takeWhile_cons, List.dropWhile_cons, f1]
      simp only [Bool.false_eq_true, if_false]
      split
      · rename_i h; injection h with h1 h2; exact absurd h1 f3
      · simp
    rw [hh, hm, hk]
    exact ⟨k, rfl, hle⟩

theorem strtodLen_max {s : Str} {k : Nat} (hk : k ≤ s.length) (h : NumText (s.take k)) :
    ∃ m, strtodLen s = some m ∧ k ≤ m := by
  obtain ⟨ws, sg, b, e, hw, hs, hb⟩ := h
  have hsplit : s = ws ++ (sg ++ (b ++ s.drop k)) := by
    have h := List.take_append_drop k s
    rw [e] at h
    rw [← List.append_assoc, ← List.append_assoc]
    exact h.symm
  have hlen : k = ws.length + sg.length + b.length := by
    have := congrArg List.length e
    rw [List.length_take, List.length_append, List.length_append] at this
    omega
  obtain ⟨n1, n2⟩ := body_head hb (s.drop k)
  obtain ⟨m, hm, hle⟩ := bodyLen_max hb (s.drop k)
  simp only [strtodLen]
  rw [show s.dropWhile isSpaceC = sg ++ (b ++ s.drop k) by
    conv => lhs; rw [hsplit]
    exact (span_append hw (sign_noSpace hs n1)).2]
  rw [optSign_append hs n2]
  unfold bodyLen at hm
  simp only [hm, Option.map_some]
  refine ⟨_, rfl, ?_⟩
  have := congrArg List.length hsplit
  simp only [List.length_append] at this ⊢
  omega

/-- C19: the getter converts the longest prefix of the value that is a number. -/
theorem C19_longest (erange : Str → Bool) (vs : List Str) (i : Nat) (v t : Str) (h : vs[i]? = some v)
    (hg : getScalar erange vs i = .val t) :
    NumText t ∧ (∃ u, v = t ++ u) ∧ ∀ p u, v = p ++ u → NumText p → p.length ≤ t.length := by
  simp only [getScalar, atIdx, h, stod] at hg
  cases hl : strtodLen v with
  | none => rw [hl] at hg; cases hg
  | some k =>
    rw [hl] at hg
    simp only at hg
    split at hg
    · cases hg
    · cases hg
      obtain ⟨h1, h2⟩ := strtodLen_spec hl
      refine ⟨h2, ⟨v.drop k, (List.take_append_drop k v).symm⟩, ?_⟩
      intro p u e hp
      have hpl : p.length ≤ v.length := by rw [e, List.length_append]; omega
      have hpt : v.take p.length = p := by rw [e]; exact List.take_left
      obtain ⟨m, hm, hle⟩ := strtodLen_max hpl (by rw [hpt]; exact hp)
      rw [hl] at hm
      cases hm
      rw [List.length_take]
      omega

/-- `0x` alone is the number zero followed by `x`; `0x1p` is one followed by `p`; `infinit` is
infinity followed by `init`. -/
example : getScalar (fun _ => false) ["0x".toList, "0x1p".toList, "infinit".toList, "1e+".toList, "nan(a_B9)x".toList] 0 = .val "0".toList ∧
    getScalar (fun _ => false) ["0x".toList, "0x1p".toList, "infinit".toList, "1e+".toList, "nan(a_B9)x".toList] 1 = .val "0x1".toList ∧
    getScalar (fun _ => false) ["0x".toList, "0x1p".toList, "infinit".toList, "1e+".toList, "nan(a_B9)x".toList] 2 = .val "inf".toList ∧
    getScalar (fun _ => false) ["0x".toList, "0x1p".toList, "infinit".toList, "1e+".toList, "nan(a_B9)x".toList] 3 = .val "1".toList ∧
    getScalar (fun _ => false) ["0x".toList, "0x1p".toList, "infinit".toList, "1e+".toList, "nan(a_B9)x".toList] 4 = .val "nan(a_B9)".toList := by
  decide +kernel

end Softlib
