/-
C84: the time texts can be read back.  C85: the estimates of the remaining time.
-/
import Verif.General.TimeTextModel
import Verif.General.ProgressProps
import Verif.SFile.SdtLemmas

namespace Softlib.General
open Softlib.Config Softlib.SFile

/-! ### Reader -/

/-- The text without terminal colour codes (from ESC to the letter `m`). -/
def stripEsc : Bool → Str → Str
  | _, [] => []
  | true, c :: r => stripEsc (c ≠ 'm') r
  | false, c :: r => if c = '\x1b' then stripEsc true r else c :: stripEsc false r

/-- Milliseconds of a unit. -/
def unitOf : Str → Option (Nat × Str)
  | 'd' :: r => some (86400000, r)
  | 'h' :: r => some (3600000, r)
  | 's' :: r => some (1000, r)
  | 'm' :: 's' :: r => some (1, r)
  | 'm' :: r => some (60000, r)
  | _ => none

theorem unitOf_length {s r : Str} {k : Nat} (h : unitOf s = some (k, r)) : r.length < s.length := by
  unfold unitOf at h
  split at h <;> cases h <;> simp <;> omega

/-- Reads numbers followed by their units, up to the end of the text; the result is the sum in
milliseconds. -/
def readTime (s : Str) : Option Nat :=
  if s = [] then some 0
  else
    let ds := s.takeWhile isDigitC
    if ds = [] then none
    else match _h : unitOf (s.dropWhile isDigitC) with
      | none => none
      | some (k, r) => (readTime r).map (decVal ds * k + ·)
  termination_by s.length
  decreasing_by
    have h1 := unitOf_length _h
    have h2 : (s.dropWhile isDigitC).length ≤ s.length := (List.dropWhile_suffix _).length_le
    omega

theorem takeWhile_digits {ds u : Str} (hd : ∀ c ∈ ds, isDigitC c = true)
    (hu : ∀ c, u.head? = some c → isDigitC c = false) :
    (ds ++ u).takeWhile isDigitC = ds ∧ (ds ++ u).dropWhile isDigitC = u := by
  induction ds with
  | nil =>
    cases u with
    | nil => simp
    | cons c u => have := hu c rfl; simp [this]
  | cons c ds ih =>
    have h1 := hd c (by simp)
    have := ih (fun x hx => hd x (by simp [hx]))
    simp [h1, this]

theorem readTime_nil : readTime [] = some 0 := by rw [readTime]; simp

/-- A number and a unit in front. -/
theorem readTime_part {ds u r : Str} {k : Nat} (hne : ds ≠ []) (hd : ∀ c ∈ ds, isDigitC c = true)
    (hu : ∀ c, u.head? = some c → isDigitC c = false) (hk : unitOf u = some (k, r)) :
    readTime (ds ++ u) = (readTime r).map (decVal ds * k + ·) := by
  obtain ⟨h1, h2⟩ := takeWhile_digits hd hu
  rw [readTime]
  rw [if_neg (by simp [hne])]
  simp only [h1, h2, hne, if_false]
  split
  · rename_i h; rw [h2, hk] at h; cases h
  · rename_i h; rw [h2, hk] at h; cases h; rfl

theorem stripEsc_append (a b : Str) (ha : '\x1b' ∉ a) :
    stripEsc false (a ++ b) = a ++ stripEsc false b := by
  induction a with
  | nil => rfl
  | cons c a ih =>
    rw [List.mem_cons, not_or] at ha
    rw [List.cons_append, stripEsc, if_neg (Ne.symm ha.1), ih ha.2, List.cons_append]

theorem stripEsc_on (b : Str) : stripEsc false (escOn ++ b) = stripEsc false b := by
  simp [escOn, stripEsc]

theorem stripEsc_off (b : Str) : stripEsc false (escOff ++ b) = stripEsc false b := by
  simp [escOff, stripEsc]

theorem intOut_no_esc (z : Int) : '\x1b' ∉ intOut z := by
  unfold intOut
  intro h
  rcases List.mem_append.1 h with h | h
  · split at h
    · simp only [List.mem_cons, List.not_mem_nil, or_false] at h
      exact absurd h (by decide)
    · cases h
  · exact absurd ((natText_digits _).2.1 _ h) (by decide)

/-- `a'` is `a` without colour codes, whatever follows. -/
def Strips (a a' : Str) : Prop := ∀ b, stripEsc false (a ++ b) = a' ++ stripEsc false b

theorem Strips.append {a a' b b' : Str} (h : Strips a a') (h' : Strips b b') :
    Strips (a ++ b) (a' ++ b') := by
  intro c; rw [List.append_assoc, h, h', List.append_assoc]

theorem Strips.plain {a : Str} (h : '\x1b' ∉ a) : Strips a a := fun _ => stripEsc_append _ _ h

theorem Strips.ite {a a' b b' : Str} (c : Prop) [Decidable c] (h : Strips a a') (h' : Strips b b') :
    Strips (if c then a else b) (if c then a' else b') := by
  split <;> assumption

theorem Strips.esc {e : Str} (color : Bool) (he : ∀ b, stripEsc false (e ++ b) = stripEsc false b) :
    Strips (if color then e else []) (if false then e else []) := by
  intro b
  cases color
  · rfl
  · exact he b

theorem strips_int (z : Int) : Strips (intOut z) (intOut z) := .plain (intOut_no_esc z)

theorem strips_timePart (color force : Bool) (n : Int) (unit : Str) (hu : '\x1b' ∉ unit) :
    Strips (timePart color force n unit) (timePart false force n unit) := by
  unfold timePart
  refine .append (.append (.append (.append (.esc _ stripEsc_on) (.plain ?_)) (strips_int n))
    (.esc _ stripEsc_off)) (.plain hu)
  split <;> decide

/-- Colours only add colour codes. -/
theorem strips_formatted (p : TimeParts) (color : Bool) :
    Strips (formattedTimeString p color) (formattedTimeString p false) := by
  unfold formattedTimeString
  have hnil : Strips [] [] := fun _ => rfl
  refine .append (.append (.append (.append ?_ ?_) ?_) ?_) ?_
  · exact .ite _ (.append (strips_int _) (.plain (by decide))) hnil
  · exact .ite _ (strips_timePart _ _ _ _ (by decide)) hnil
  · exact .ite _ (strips_timePart _ _ _ _ (by decide)) hnil
  · exact .ite _ (strips_timePart _ _ _ _ (by decide)) hnil
  · refine .ite _ (.append (.append (.append (.append (.esc _ stripEsc_on) (.plain ?_))
      (strips_int _)) (.esc _ stripEsc_off)) (.plain (by decide))) hnil
    repeat' split
    all_goals decide

theorem Strips.all {a a' : Str} (h : Strips a a') : stripEsc false a = a' := by
  have := h []
  simpa [stripEsc] using this

theorem decVal_zero (ds : Str) : decVal ('0' :: ds) = decVal ds := by
  unfold decVal
  simp

/-- Numbers with leading zeros. -/
theorem number_text (z : Str) (n : Int) (hz : ∀ c ∈ z, c = '0') (hn : 0 ≤ n) :
    z ++ intOut n ≠ [] ∧ (∀ c ∈ z ++ intOut n, isDigitC c = true) ∧
      (decVal (z ++ intOut n) : Int) = n := by
  have hio : intOut n = natText n.toNat := by
    unfold intOut
    rw [if_neg (by omega), List.nil_append]
    congr 1
    omega
  obtain ⟨h1, h2, h3⟩ := natText_digits n.toNat
  rw [hio]
  refine ⟨by simp [h1], ?_, ?_⟩
  · intro c hc
    rcases List.mem_append.1 hc with hc | hc
    · rw [hz c hc]; decide
    · exact h2 c hc
  · induction z with
    | nil => rw [List.nil_append, h3]; omega
    | cons c z ih =>
      rw [hz c (by simp), List.cons_append, decVal_zero]
      exact ih (fun x hx => hz x (by simp [hx]))

theorem readTime_timePart (force : Bool) (n : Int) (u b r : Str) (k : Nat) (hn : 0 ≤ n)
    (hu : ∀ c, (u ++ b).head? = some c → isDigitC c = false) (hk : unitOf (u ++ b) = some (k, r)) :
    readTime (timePart false force n u ++ b) = (readTime r).map (n.toNat * k + ·) := by
  unfold timePart
  simp only [Bool.false_eq_true, if_false, List.nil_append, List.append_nil, List.append_assoc]
  have hz : ∀ c ∈ (if n < 10 ∧ force = true then ['0'] else [] : Str), c = '0' := by
    split <;> simp
  obtain ⟨h1, h2, h3⟩ := number_text _ n hz hn
  rw [← List.append_assoc, readTime_part h1 h2 hu hk]
  congr 2
  have : decVal ((if n < 10 ∧ force = true then ['0'] else []) ++ intOut n) = n.toNat := by omega
  rw [this]

/-- The text after the minutes never starts with `s`. -/
theorem timePart_head (force : Bool) (n : Int) (u : Str) (hn : 0 ≤ n) :
    ∃ c r, timePart false force n u = c :: r ∧ isDigitC c = true := by
  have hz : ∀ c ∈ (if n < 10 ∧ force = true then ['0'] else [] : Str), c = '0' := by
    split <;> simp
  obtain ⟨h1, h2, h3⟩ := number_text _ n hz hn
  unfold timePart
  simp only [Bool.false_eq_true, if_false, List.nil_append, List.append_nil]
  cases hs : (if n < 10 ∧ force = true then ['0'] else [] : Str) ++ intOut n with
  | nil => exact absurd hs h1
  | cons c r =>
    exact ⟨c, r ++ u, rfl, h2 c (by rw [hs]; simp)⟩

theorem readTime_opt (c force : Bool) (n : Int) (u b : Str) (k v : Nat) (hn : 0 ≤ n)
    (hc : c = false → n = 0) (hu : ∀ x, (u ++ b).head? = some x → isDigitC x = false)
    (hk : unitOf (u ++ b) = some (k, b)) (hb : readTime b = some v) :
    readTime ((if c = true then timePart false force n u else []) ++ b) =
      some (n.toNat * k + v) := by
  cases c with
  | true => rw [if_pos rfl, readTime_timePart force n u b b k hn hu hk, hb]; rfl
  | false => rw [if_neg (by simp), List.nil_append, hb, hc rfl]; simp

/-- Reading back the five numbers. -/
theorem readTime_formatted (p : TimeParts) (h0 : 0 ≤ p.days) (h1 : 0 ≤ p.hours) (h2 : 0 ≤ p.mins)
    (h3 : 0 ≤ p.secs) (h4 : 0 ≤ p.msecs) :
    readTime (formattedTimeString p false) =
      some (p.days.toNat * 86400000 + (p.hours.toNat * 3600000 + (p.mins.toNat * 60000 +
        (p.secs.toNat * 1000 +
          if p.days = 0 ∧ p.hours = 0 ∧ p.mins = 0 ∧ p.secs < 10 then p.msecs.toNat else 0)))) := by
  obtain ⟨d, h, m, s, ms⟩ := p
  simp only at h0 h1 h2 h3 h4
  unfold formattedTimeString
  simp only [List.append_assoc]
  generalize hf2 : (decide (d > 0) || decide (h > 0) || decide (m > 0)) = f2
  generalize hf1 : (decide (d > 0) || decide (h > 0)) = f1
  generalize hf0 : (decide (d > 0)) = f0
  have q0 : f0 = false → d = 0 := by rintro rfl; simp at hf0; omega
  have q1 : f1 = false → h = 0 := by rintro rfl; simp at hf1; omega
  have q2 : f2 = false → m = 0 := by rintro rfl; simp at hf2; omega
  have q3 : (f2 || decide (s > 0)) = false → s = 0 := by intro h; simp at h; omega
  have q4 : f2 = false ↔ d = 0 ∧ h = 0 ∧ m = 0 := by rw [← hf2]; simp; omega
  clear hf0 hf1 hf2
  generalize hT : (if (!f2 && decide (s < 10)) = true then
      (if false = true then escOn else []) ++
      ((if s > 0 then (if ms < 10 then ['0', '0'] else if ms < 100 then ['0'] else []) else []) ++
        (intOut ms ++ ((if false = true then escOff else []) ++ ['m', 's']))) else []) = T
  have hzz : ∀ c ∈ (if s > 0 then (if ms < 10 then ['0', '0'] else if ms < 100 then ['0'] else [])
      else [] : Str), c = '0' := by
    repeat' split
    all_goals simp
  obtain ⟨z1, z2, z3⟩ := number_text _ ms hzz h4
  simp only [Bool.false_eq_true, if_false, List.nil_append] at hT
  rw [← List.append_assoc] at hT
  have e4 : readTime T = some (if d = 0 ∧ h = 0 ∧ m = 0 ∧ s < 10 then ms.toNat else 0) := by
    by_cases hc : f2 = false ∧ s < 10
    · rw [if_pos (by simp [hc])] at hT
      have hc' := q4.1 hc.1
      rw [if_pos ⟨hc'.1, hc'.2.1, hc'.2.2, hc.2⟩, ← hT]
      rw [readTime_part (k := 1) (r := []) z1 z2
        (by intro c hc; simp at hc; subst hc; decide) rfl, readTime_nil]
      simp only [Option.map_some, Option.some.injEq]
      omega
    · rw [if_neg (by simpa using hc)] at hT
      rw [if_neg (by intro g; exact hc ⟨q4.2 ⟨g.1, g.2.1, g.2.2.1⟩, g.2.2.2⟩), ← hT, readTime_nil]
  have hdig : ∀ x, T.head? = some x → isDigitC x = true := by
    intro x hx
    by_cases hc : (!f2 && decide (s < 10)) = true
    · rw [if_pos hc] at hT
      rw [← hT] at hx
      cases hs : (if s > 0 then (if ms < 10 then ['0', '0'] else if ms < 100 then ['0'] else [])
        else [] : Str) ++ intOut ms with
      | nil => exact absurd hs z1
      | cons c r =>
        rw [hs] at hx z2
        simp only [List.cons_append, List.head?_cons, Option.some.injEq] at hx
        subst hx
        exact z2 _ (by simp)
    · rw [if_neg hc] at hT; rw [← hT] at hx; cases hx
  have e3 := readTime_opt (f2 || decide (s > 0)) f2 s ['s'] T 1000 _ h3 q3
    (by intro x hx; simp at hx; subst hx; decide) rfl e4
  generalize hT3 : (if (f2 || decide (s > 0)) = true then timePart false f2 s ['s'] else []) ++ T = T3
  rw [hT3] at e3
  have hdig3 : ∀ x, T3.head? = some x → isDigitC x = true := by
    intro x hx
    by_cases hc : (f2 || decide (s > 0)) = true
    · rw [if_pos hc] at hT3
      obtain ⟨c, r, g1, g2⟩ := timePart_head f2 s ['s'] h3
      rw [g1] at hT3
      rw [← hT3] at hx
      simp only [List.cons_append, List.head?_cons, Option.some.injEq] at hx
      subst hx; exact g2
    · rw [if_neg hc, List.nil_append] at hT3
      rw [← hT3] at hx
      exact hdig x hx
  have hm : unitOf (['m'] ++ T3) = some (60000, T3) := by
    cases T3 with
    | nil => rfl
    | cons c r =>
      have := hdig3 c rfl
      by_cases hcs : c = 's'
      · subst hcs; exact absurd this (by decide)
      · simp only [List.cons_append, List.nil_append]
        unfold unitOf
        split <;> simp_all
  have e2 := readTime_opt f2 f1 m ['m'] T3 60000 _ h2 q2
    (by intro x hx; simp at hx; subst hx; decide) hm e3
  have e1 := readTime_opt f1 f0 h ['h'] _ 3600000 _ h1 q1
    (by intro x hx; simp at hx; subst hx; decide) rfl e2
  cases f0 with
  | true =>
    rw [if_pos rfl]
    obtain ⟨y1, y2, y3⟩ := number_text [] d (by simp) h0
    rw [List.nil_append] at y1 y2 y3
    generalize hT1 : (if f1 = true then timePart false true h ['h'] else []) ++
      ((if f2 = true then timePart false f1 m ['m'] else []) ++ T3) = T1
    rw [hT1] at e1
    rw [List.append_assoc, readTime_part (k := 86400000) (r := T1) y1 y2
      (by intro x hx; simp at hx; subst hx; decide) rfl, e1]
    simp only [Option.map_some, Option.some.injEq]
    have : decVal (intOut d) = d.toNat := by omega
    rw [this]
  | false =>
    rw [if_neg (by simp), List.nil_append, e1, q0 rfl]
    simp

end Softlib.General

namespace Softlib
open Softlib.General Softlib.Config Softlib.SFile

/-- C84: with the colour codes removed, every time text is the text without colours. -/
theorem C84_colours_only (msec : Int) (tu : TimeUnit) (color : Bool) :
    stripEsc false (timeString msec color tu) = timeString msec false tu :=
  (strips_formatted _ _).all

/-- C84: the text of a duration reads back as the duration if it is shorter than ten seconds (or
shown in milliseconds), and otherwise as the duration rounded down to seconds. -/
theorem C84_reads_back (msec : Int) (tu : TimeUnit) (color : Bool) (h : 0 ≤ msec) :
    (readTime (stripEsc false (timeString msec color tu))).map Int.ofNat =
      some (if tu = .milliseconds ∨ msec < 10000 then msec else msec / 1000 * 1000) := by
  rw [C84_colours_only]
  obtain ⟨h0, h1, h2, h3, h4, b1, b2, b3, b4⟩ := C66_parts_bounded msec tu h
  have hs := C66_parts_add_up msec tu
  simp only at hs
  rw [timeString, readTime_formatted _ h0 h1 h2 h3 h4]
  have hms : tu = .milliseconds → (timeParts msec tu).days = 0 ∧ (timeParts msec tu).hours = 0 ∧
      (timeParts msec tu).mins = 0 ∧ (timeParts msec tu).secs = 0 := by
    rintro rfl; simp [timeParts, TimeUnit.toNat]
  generalize timeParts msec tu = p at *
  obtain ⟨d, hh, m, s, ms⟩ := p
  simp only at *
  simp only [Option.map_some, Option.some.injEq]
  by_cases htu : tu = .milliseconds
  · obtain ⟨rfl, rfl, rfl, rfl⟩ := hms htu
    simp [htu]
    omega
  · have hb := b4 htu
    simp only [htu, false_or]
    by_cases hl : msec < 10000
    · rw [if_pos hl, if_pos (by omega)]
      simp only [Int.ofNat_eq_natCast]
      omega
    · rw [if_neg hl, if_neg (by omega)]
      simp only [Int.ofNat_eq_natCast]
      omega

example : timeString 3723004 true .hours =
    "\x1b[1;33m1\x1b[0mh\x1b[1;33m02\x1b[0mm\x1b[1;33m03\x1b[0ms".toList := by decide +kernel
example : readTime "1h02m03s".toList = some 3723000 := by decide +kernel
example : readTime "9s007ms".toList = some 9007 ∧ readTime "1h2".toList = none := by decide +kernel

/-- The last `k` decimal digits of a number. -/
def lastDigits : Nat → Nat → Str
  | 0, _ => []
  | k + 1, n => lastDigits k (n / 10) ++ [Char.ofNat (48 + n % 10)]

theorem pad_two (n : Int) (h : 0 ≤ n) (h' : n < 100) :
    (if n < 10 then ['0'] else []) ++ intOut n = lastDigits 2 n.toNat := by
  obtain ⟨m, rfl⟩ := Int.eq_ofNat_of_zero_le h
  have hm : m < 100 := by omega
  have key : ∀ m : Nat, m < 100 → (if (m : Int) < 10 then ['0'] else []) ++ intOut m =
      lastDigits 2 (m : Int).toNat := by decide +kernel
  exact key m hm

theorem pad_three (n : Int) (h : 0 ≤ n) (h' : n < 1000) :
    (if n < 10 then ['0', '0'] else if n < 100 then ['0'] else []) ++ intOut n =
      lastDigits 3 n.toNat := by
  obtain ⟨m, rfl⟩ := Int.eq_ofNat_of_zero_le h
  have hm : m < 1000 := by omega
  have key : ∀ m : Nat, m < 1000 → (if (m : Int) < 10 then ['0', '0'] else if (m : Int) < 100 then ['0'] else [])
      ++ intOut m = lastDigits 3 (m : Int).toNat := by decide +kernel
  exact key m hm

theorem timeParts_hours (m : Nat) : timeParts m .hours =
    ⟨0, (m / 3600000 : Nat), (m / 60000 % 60 : Nat), (m / 1000 % 60 : Nat), (m % 1000 : Nat)⟩ := by
  have td : ∀ (a b : Int), 0 ≤ a → Int.tdiv a b = a / b := fun a b h => Int.tdiv_eq_ediv_of_nonneg h
  simp only [timeParts, TimeUnit.toNat]
  simp
  rw [td ((m : Int) - m / 3600000 * 3600000) _ (by omega), td _ 1000 (by omega)]
  omega

/-- C84: the exact text of every duration (as the tracker prints it, with hours as largest unit):
numbers after the first one have two digits, milliseconds after seconds have three. -/
theorem C84_layout (m : Nat) :
    timeString m false .hours =
      if 3600000 ≤ m then natText (m / 3600000) ++ ['h'] ++ lastDigits 2 (m / 60000 % 60) ++ ['m'] ++
        lastDigits 2 (m / 1000 % 60) ++ ['s']
      else if 60000 ≤ m then natText (m / 60000) ++ ['m'] ++ lastDigits 2 (m / 1000 % 60) ++ ['s']
      else if 10000 ≤ m then natText (m / 1000) ++ ['s']
      else if 1000 ≤ m then natText (m / 1000) ++ ['s'] ++ lastDigits 3 (m % 1000) ++ ['m', 's']
      else natText m ++ ['m', 's'] := by
  have hio : ∀ n : Nat, intOut (n : Int) = natText n := by intro n; simp [intOut]
  have two : ∀ n : Nat, n < 60 → (if (n : Int) < 10 then ['0'] else []) ++ intOut n =
      lastDigits 2 n := by
    intro n hn; simpa using pad_two n (by omega) (by omega)
  rw [timeString, timeParts_hours]
  by_cases c1 : 3600000 ≤ m
  · rw [if_pos c1]
    have g1 : ((m / 3600000 : Nat) : Int) > 0 := by omega
    have t1 := two (m / 60000 % 60) (by omega)
    have t2 := two (m / 1000 % 60) (by omega)
    simp only [formattedTimeString, timePart, g1]
    simp only [decide_true, gt_iff_lt, Int.lt_irrefl, decide_false, Bool.or_true, Bool.true_or,
      Bool.false_or, if_true, Bool.false_eq_true, if_false, and_false, and_true, List.nil_append,
      List.append_nil, Bool.not_true, Bool.false_and, hio] at t1 t2 ⊢
    rw [← t1, ← t2]
    simp [List.append_assoc]
  rw [if_neg c1]
  have z1 : m / 3600000 = 0 := by omega
  by_cases c2 : 60000 ≤ m
  · rw [if_pos c2]
    have g1 : ((m / 60000 % 60 : Nat) : Int) > 0 := by omega
    have t2 := two (m / 1000 % 60) (by omega)
    have e : m / 60000 % 60 = m / 60000 := by omega
    simp only [formattedTimeString, timePart, g1, z1]
    simp only [decide_true, gt_iff_lt, Int.lt_irrefl, decide_false, Bool.or_true, Bool.true_or,
      Bool.false_or, if_true, Bool.false_eq_true, if_false, and_false, and_true, List.nil_append,
      List.append_nil, Bool.not_true, Bool.false_and, hio, Bool.or_false, Int.ofNat_zero, e,
      Int.natCast_zero] at t2 ⊢
    rw [← t2]
    simp [List.append_assoc]
  rw [if_neg c2]
  have z2 : m / 60000 % 60 = 0 := by omega
  by_cases c3 : 10000 ≤ m
  · rw [if_pos c3]
    have g1 : ((m / 1000 % 60 : Nat) : Int) > 0 := by omega
    have g2 : ¬ ((m / 1000 % 60 : Nat) : Int) < 10 := by omega
    have e : m / 1000 % 60 = m / 1000 := by omega
    rw [e] at g1 g2 ⊢
    simp only [formattedTimeString, timePart, z1, z2, hio]
    simp only [g1, g2]
    simp
  rw [if_neg c3]
  by_cases c4 : 1000 ≤ m
  · rw [if_pos c4]
    have g1 : ((m / 1000 % 60 : Nat) : Int) > 0 := by omega
    have g2 : ((m / 1000 % 60 : Nat) : Int) < 10 := by omega
    have e : m / 1000 % 60 = m / 1000 := by omega
    have t3 := pad_three (m % 1000 : Nat) (by omega) (by omega)
    simp only [Int.toNat_natCast] at t3
    simp only [formattedTimeString, timePart, g1, g2, z1, z2]
    simp only [decide_true, gt_iff_lt, Int.lt_irrefl, decide_false, Bool.or_true,
      Bool.false_or, if_true, Bool.false_eq_true, if_false, and_false, List.nil_append,
      List.append_nil, Bool.not_false, Bool.true_and, Bool.or_false,
      Int.natCast_zero, t3]
    rw [hio, e, ← List.append_assoc]
  rw [if_neg c4]
  have z3 : m / 1000 % 60 = 0 := by omega
  have e : m % 1000 = m := by omega
  simp only [formattedTimeString, timePart, z1, z2, z3, e]
  simp [hio]

example : timeString 3723004 false .hours = "1h02m03s".toList ∧
    timeString 9007 false .hours = "9s007ms".toList := by decide +kernel

/-- C84 is false as documented: no time at all is not written "0s" but "0ms" (ProgressTracker.cpp
240-241). -/
theorem C84_refuted_zero : timeString 0 false .hours = "0ms".toList ∧
    timeString 0 false .hours ≠ "0s".toList := by decide +kernel

/-- C84: a whole progress line with colours is the line without colours plus colour codes. -/
theorem C84_line_colours (color : Bool) (index nprint total diff : Int) (est : Option Int) :
    stripEsc false (progressLine color index nprint total diff est) =
      progressLine false index nprint total diff est := by
  have hT : ∀ m, Strips (timeString m color .hours) (timeString m false .hours) :=
    fun m => strips_formatted _ _
  have hP : ∀ (a : Str), ('\x1b' ∉ a) → Strips a a := fun _ => .plain
  apply Strips.all
  unfold progressLine
  refine .append (.append (.append (.append (.append (.append (.append (.append (.append (.append
    (.append (.append (.append ?_ ?_) ?_) ?_) ?_) ?_) ?_) ?_) ?_) ?_) ?_) ?_) ?_) ?_
  · exact .esc _ (by intro b; simp [stripEsc])
  · exact hP _ (by decide)
  · exact .esc _ stripEsc_off
  · exact hP _ (by decide)
  · exact strips_int _
  · exact hP _ (by decide)
  · exact strips_int _
  · exact hP _ (by decide)
  · exact hT _
  · exact hP _ (by decide)
  · exact hT _
  · exact hP _ (by decide)
  · cases est with
    | none => exact fun _ => rfl
    | some e =>
      exact .append (.append (.append (.append (hP _ (by decide)) (hT _)) (hP _ (by decide))) (hT _))
        (hP _ (by decide))
  · exact hP _ (by decide)

example : progressLine false 1 4 61000 61000 (some 183000) =
    "PROGRESS (1/4) :: 1m01s / 1m01s passed, 3m03s remaining (4m04s total)\n".toList := by
  decide +kernel

/-! ### C85: estimates -/

/-- The times of the remaining blocks if each takes `b` longer than the one before. -/
def remaining (dt b : Int) : Nat → Int
  | 0 => 0
  | k + 1 => (dt + b) + remaining (dt + b) b k

theorem remaining_closed (dt b : Int) (k : Nat) :
    2 * remaining dt b k = 2 * k * dt + k * (k + 1) * b := by
  induction k generalizing dt with
  | zero => simp [remaining]
  | succ k ih =>
    rw [remaining, Int.mul_add, ih]
    simp only [Int.natCast_add, Int.natCast_one]
    have e : (k : Int) * (2 * b) = 2 * (k * b) := Int.mul_left_comm _ _ _
    simp only [Int.mul_add, Int.add_mul, Int.mul_one, Int.one_mul, Int.mul_assoc]
    omega

theorem half_product (N : Nat) :
    2 * (if Int.tmod (N : Int) 2 = 0 then Int.tdiv (N : Int) 2 * ((N : Int) + 1)
      else (N : Int) * Int.tdiv ((N : Int) + 1) 2) = (N : Int) * (N + 1) := by
  have e1 : Int.tmod (N : Int) 2 = ((N % 2 : Nat) : Int) := by
    rw [Int.tmod_eq_emod_of_nonneg (by omega)]; omega
  have e2 : Int.tdiv (N : Int) 2 = ((N / 2 : Nat) : Int) := by
    rw [Int.tdiv_eq_ediv_of_nonneg (by omega)]; omega
  have e3 : Int.tdiv ((N : Int) + 1) 2 = (((N + 1) / 2 : Nat) : Int) := by
    rw [Int.tdiv_eq_ediv_of_nonneg (by omega)]; omega
  rw [e1, e2, e3]
  split
  · rename_i h
    rw [← Int.mul_assoc]
    congr 1
    omega
  · rename_i h
    rw [Int.mul_left_comm]
    congr 1
    omega

/-- C85: from the second line on the estimate is the sum of the remaining blocks when the growth
between the last two blocks continues; a shrinking block counts as no growth. -/
theorem C85_estimate_exact (nprint : Int) (st : EstSt) (i dt dt1 : Int) (k : Nat)
    (hk : nprint - i = k) (hi : 2 ≤ i) (hst : st.dt1 = some dt1) (h0 : 0 ≤ dt) (h1 : 0 ≤ dt1) :
    (estimateDet nprint st i dt).1 =
      some (remaining dt (if dt1 ≤ dt then dt - dt1 else 0) k) := by
  have hr := remaining_closed dt (if dt1 ≤ dt then dt - dt1 else 0) k
  have hh := half_product k
  unfold estimateDet
  simp only [hk, hst]
  rw [if_pos hi]
  generalize (if Int.tmod (k : Int) 2 = 0 then Int.tdiv (k : Int) 2 * ((k : Int) + 1)
      else (k : Int) * Int.tdiv ((k : Int) + 1) 2) = P at hh ⊢
  congr 1
  by_cases hd : dt1 < dt
  · have hpos : (dt - dt1) * dt > 0 := Int.mul_pos (by omega) (by omega)
    rw [if_pos hpos]
    rw [if_pos (by omega)] at hr ⊢
    rw [← hh] at hr
    rw [Int.mul_assoc, Int.mul_assoc] at hr
    omega
  · have hneg : ¬ (dt - dt1) * dt > 0 := by
      have : (dt - dt1) * dt ≤ 0 := Int.mul_nonpos_of_nonpos_of_nonneg (by omega) h0
      omega
    rw [if_neg hneg]
    have hz : (if dt1 ≤ dt then dt - dt1 else 0) = 0 := by split <;> omega
    rw [hz] at hr ⊢
    rw [Int.mul_zero, Int.mul_assoc] at hr
    omega

/-- C85: with the first line only the last block is known. -/
theorem C85_first_estimate (nprint : Int) (st : EstSt) (i dt : Int) (hi : i < 2) :
    (estimateDet nprint st i dt).1 = some ((nprint - i) * dt) := by
  unfold estimateDet
  simp only
  rw [if_neg (by omega)]

theorem estimates_get (n : Int) (dts : List Int) (st : EstSt) (i : Int) (j : Nat) (p d : Int)
    (hp : dts[j]? = some p) (hd : dts[j + 1]? = some d) :
    ∃ o, (estimates n st i dts)[j + 1]? = some (estimateDet n ⟨some p, o⟩ (i + j + 1) d).1 := by
  induction j generalizing dts st i with
  | zero =>
    match dts, hp, hd with
    | x :: y :: dts, hp, hd =>
      simp only [List.getElem?_cons_zero, List.getElem?_cons_succ, Option.some.injEq] at hp hd
      subst hp hd
      refine ⟨st.dt1, ?_⟩
      simp [estimates, estimateDet]
  | succ j ih =>
    match dts, hp, hd with
    | x :: dts, hp, hd =>
      simp only [List.getElem?_cons_succ] at hp hd
      obtain ⟨o, ho⟩ := ih dts (estimateDet n st i x).2 (i + 1) hp hd
      refine ⟨o, ?_⟩
      rw [estimates, List.getElem?_cons_succ, ho]
      congr 3
      omega

/-- C85: in every sequential run of a tracker, with blocks taking the times `dts`, the estimate
shown with line `j + 2` is the time of the remaining blocks if the growth from block `j + 1` to
block `j + 2` continues (shrinking counts as no growth). -/
theorem C85_run (n : Nat) (dts : List Int) (j : Nat) (p d : Int) (hp : dts[j]? = some p)
    (hd : dts[j + 1]? = some d) (h0 : 0 ≤ p) (h1 : 0 ≤ d) (hn : j + 2 ≤ n) :
    (estimates n .init 1 dts)[j + 1]? =
      some (some (remaining d (if p ≤ d then d - p else 0) (n - (j + 2)))) := by
  obtain ⟨o, ho⟩ := estimates_get n dts .init 1 j p d hp hd
  rw [ho, C85_estimate_exact n _ _ d p (n - (j + 2)) (by omega) (by omega) rfl h1 h0]

example : estimates 4 .init 1 [10, 20, 25, 25] = [some 30, some 70, some 30, some 0] := by
  decide +kernel

theorem remaining_sum (a b : Int) (i k : Nat) :
    ((List.range' (i + 1) k).map (fun j : Nat => a + b * (j : Int))).sum =
      remaining (a + b * (i : Int)) b k := by
  induction k generalizing i with
  | zero => rfl
  | succ k ih =>
    rw [List.range'_succ, List.map_cons, List.sum_cons, ih, remaining]
    have e : a + b * ((i + 1 : Nat) : Int) = a + b * (i : Int) + b := by
      rw [Int.natCast_add, Int.mul_add]; simp; omega
    rw [e]

/-- C85 (part): in a sequential run where block number `j` (from 0) takes `a + b j` milliseconds
with `b` not negative, every line but the first shows exactly the time that the remaining blocks
take.  Left out are shrinking blocks, see `C85_refuted_shrinking`. -/
theorem C85_run_exact_partial (n : Nat) (a b : Int) (ha : 0 ≤ a) (hb : 0 ≤ b) (i : Nat) (hi : 2 ≤ i)
    (hn : i ≤ n) :
    (estimates n .init 1 ((List.range n).map (fun j : Nat => a + b * (j : Int))))[i - 1]? =
      some (some (((List.range n).drop i).map (fun j : Nat => a + b * (j : Int))).sum) := by
  obtain ⟨j, rfl⟩ : ∃ j, i = j + 2 := ⟨i - 2, by omega⟩
  have g : ∀ m : Nat, m < n → ((List.range n).map (fun j : Nat => a + b * (j : Int)))[m]? =
      some (a + b * (m : Int)) := by
    intro m hm
    rw [List.getElem?_map, List.getElem?_range hm]; rfl
  have nn : ∀ m : Nat, 0 ≤ a + b * (m : Int) := fun m =>
    Int.add_nonneg ha (Int.mul_nonneg hb (by omega))
  have := C85_run n _ j _ _ (g j (by omega)) (g (j + 1) (by omega)) (nn _) (nn _) (by omega)
  rw [show j + 2 - 1 = j + 1 from rfl, this]
  have e : b * ((j + 1 : Nat) : Int) = b * (j : Int) + b := by
    rw [Int.natCast_add, Int.mul_add]; simp
  rw [if_pos (by omega), List.range_eq_range', List.drop_range']
  have hs := remaining_sum a b (j + 1) (n - (j + 2))
  have e2 : 0 + (j + 2) * 1 = j + 1 + 1 := by omega
  rw [e2, hs]
  congr 3
  omega

/-- C85: a constant time per block gives exact estimates with every line. -/
theorem C85_constant (n : Nat) (c : Int) (hc : 0 ≤ c) (i : Nat) (hi : 1 ≤ i) (hn : i ≤ n) :
    (estimates n .init 1 (List.replicate n c))[i - 1]? = some (some ((n - i : Nat) * c)) := by
  have hg : ∀ m : Nat, m < n → (List.replicate n c)[m]? = some c := by
    intro m hm; rw [List.getElem?_replicate, if_pos hm]
  by_cases h1 : i = 1
  · subst h1
    obtain ⟨m, rfl⟩ : ∃ m, n = m + 1 := ⟨n - 1, by omega⟩
    rw [List.replicate_succ, estimates, Nat.sub_self, List.getElem?_cons_zero,
      C85_first_estimate _ _ _ _ (by omega)]
    congr 3
    omega
  · obtain ⟨j, rfl⟩ : ∃ j, i = j + 2 := ⟨i - 2, by omega⟩
    rw [show j + 2 - 1 = j + 1 from rfl,
      C85_run n _ j c c (hg _ (by omega)) (hg _ (by omega)) hc hc (by omega)]
    have := remaining_closed c 0 (n - (j + 2))
    rw [if_pos (by omega), Int.sub_self]
    rw [Int.mul_zero, Int.mul_assoc] at this
    congr 2
    omega

/-- C85: with the last line nothing remains. -/
theorem C85_last (n : Nat) (st : EstSt) (i dt : Int) (h : i = n) (hi : 2 ≤ i) (dt1 : Int)
    (hst : st.dt1 = some dt1) : (estimateDet n st i dt).1 = some 0 := by
  unfold estimateDet
  simp only [hst, h]
  rw [← h, if_pos hi]
  simp

/-- C85 is false for shrinking blocks: blocks of 30, 20 and 10 milliseconds, and 20 are announced
before the last one. -/
theorem C85_refuted_shrinking :
    (estimates 3 .init 1 [30, 20, 10])[1]? = some (some 20) := by decide +kernel

/-- C85 is false for concurrent calls: the second line can be printed first, and its estimate is
computed from the member `dt1` that nothing has set (ProgressTracker.cpp 172). -/
theorem C85_refuted_concurrent :
    (concRun (fun k => k + 1) (concInit 2 2) [0, 0, 1, 1, 1]).printed = [2] ∧
    ∀ n dt, (estimateDet n .init 2 dt).1 = none := by
  refine ⟨by decide +kernel, fun n dt => ?_⟩
  simp [estimateDet, EstSt.init]

/-- C85: the estimate by averaging is the average time so far for each remaining block, for
durations that divide evenly; before the first line it divides by zero. -/
theorem C85_average (n i c : Int) (hi : 0 < i) : estimateAvg n i (i * c) = some ((n - i) * c) ∧
    estimateAvg n 0 c = none := by
  unfold estimateAvg
  rw [if_neg (by omega)]
  refine ⟨?_, by simp⟩
  rw [Int.mul_left_comm, Int.mul_tdiv_cancel_left _ (by omega)]

end Softlib
