/-
Properties C17 to C19: interpretation of setting values.
-/
import Verif.Config.SettingLemmas

namespace Softlib

open Softlib.Config

/-! ### C17: booleans -/

/-- The texts that mean yes and no. -/
def Affirmative (v : Str) : Prop :=
  v ∈ ["yes".toList, "Yes".toList, "YES".toList, "true".toList, "True".toList, "TRUE".toList]
def Negative (v : Str) : Prop :=
  v ∈ ["no".toList, "No".toList, "NO".toList, "false".toList, "False".toList, "FALSE".toList]

theorem affirmative_not_negative {v : Str} (h : Affirmative v) : ¬ Negative v := by
  simp only [Affirmative, List.mem_cons, List.not_mem_nil, or_false] at h
  rcases h with rfl | rfl | rfl | rfl | rfl | rfl <;> (unfold Negative; decide)

theorem stringToBool_cases (v : Str) :
    (Affirmative v ∧ stringToBool v = .val true) ∨ (Negative v ∧ stringToBool v = .val false) ∨
    (¬ Affirmative v ∧ ¬ Negative v ∧ stringToBool v = .softlib) := by
  unfold stringToBool
  split
  · rename_i h
    exact .inl ⟨by simpa [Affirmative] using h, rfl⟩
  · rename_i h
    have ha : ¬ Affirmative v := by simpa [Affirmative] using h
    split
    · rename_i h2
      exact .inr (.inl ⟨by simpa [Negative] using h2, rfl⟩)
    · rename_i h2
      exact .inr (.inr ⟨ha, by simpa [Negative] using h2, rfl⟩)

theorem isBoolAt_iff (vs : List Str) (i : Nat) (v : Str) (h : vs[i]? = some v) :
    ∃ b, isBoolAt vs i = .val b ∧ (b = true ↔ Affirmative v ∨ Negative v) := by
  refine ⟨_, by simp only [isBoolAt, atIdx, h]; rfl, ?_⟩
  rw [decide_eq_true_iff]
  simp only [Affirmative, Negative, List.mem_cons, List.not_mem_nil, or_false]
  constructor
  · rintro (h | h | h | h | h | h | h | h | h | h | h | h) <;> simp [h]
  · rintro ((h | h | h | h | h | h) | (h | h | h | h | h | h)) <;> simp [h]

/-- C17: for an existing value the check succeeds exactly when the getter does not throw,
and the getter says true exactly for the six affirmative texts, false exactly for the six
negative ones. -/
theorem C17_bool_check_matches_get (vs : List Str) (i : Nat) (v : Str) (h : vs[i]? = some v) :
    (isBoolAt vs i = .val true ↔ ∃ b, getBool vs i = .val b) ∧
    (isBoolAt vs i = .val false ↔ getBool vs i = .softlib) ∧
    (getBool vs i = .val true ↔ Affirmative v) ∧
    (getBool vs i = .val false ↔ Negative v) := by
  obtain ⟨b, hb, hiff⟩ := isBoolAt_iff vs i v h
  rw [hb]
  have hg : getBool vs i = stringToBool v := by simp only [getBool, atIdx, h]
  rw [hg]
  rcases stringToBool_cases v with ⟨h1, e⟩ | ⟨h1, e⟩ | ⟨h1, h2, e⟩
  · have h2 := affirmative_not_negative h1
    have hb' : b = true := hiff.2 (.inl h1)
    subst hb'
    simp [e, h1, h2]
  · have h2 : ¬ Affirmative v := fun h => affirmative_not_negative h h1
    have hb' : b = true := hiff.2 (.inr h1)
    subst hb'
    simp [e, h1, h2]
  · have hb' : b = false := by
      cases b with
      | false => rfl
      | true => rcases hiff.1 rfl with h | h <;> contradiction
    subst hb'
    simp [e, h1, h2]

/-- C17, the check without index: true exactly for a single boolean value. -/
theorem C17_bool_check_single (vs : List Str) :
    (single isBoolAt vs = .val true ↔ ∃ v, vs = [v] ∧ (Affirmative v ∨ Negative v)) ∧
    (single isBoolAt vs = .val true ∨ single isBoolAt vs = .val false) := by
  unfold single
  match vs with
  | [] => simp
  | [v] =>
    obtain ⟨b, hb, hiff⟩ := isBoolAt_iff [v] 0 v rfl
    simp only [List.length_singleton, ne_eq, not_true_eq_false, if_false, hb]
    cases b <;> simp_all
  | v :: w :: r => simp

example : isBoolAt ["no".toList, "TRUE".toList] 1 = .val true ∧
    getBool ["no".toList, "TRUE".toList] 1 = .val true := by decide

/-! ### C18: integers -/

theorem stoS_iff (w : Nat) (v : Str) (z : Int) :
    stoS w v = .val (z, v.length) ↔ Denotes v z ∧ - (2 ^ w : Int) ≤ z ∧ z < 2 ^ w := by
  unfold stoS
  constructor
  · intro h
    split at h
    · cases h
    · rename_i neg ds e he
      simp only at h
      split at h
      · rename_i hr
        injection h with h
        injection h with h1 h2
        subst h1; subst h2
        exact ⟨⟨neg, ds, intPrefix_whole.1 he, rfl⟩, hr⟩
      · cases h
  · rintro ⟨⟨neg, ds, hw, rfl⟩, hr⟩
    rw [intPrefix_whole.2 hw]
    simp only
    rw [if_pos (by exact hr)]
    rfl

theorem stoU_iff (v : Str) (n : Nat) :
    stoU v = .val (n, v.length) ↔ ∃ z, Denotes v z ∧ z.natAbs < 2 ^ 64 ∧ (n : Int) = z % 2 ^ 64 := by
  unfold stoU
  have arith : ∀ (neg : Bool) (m : Nat), m < 2 ^ 64 →
      (((if neg then (2 ^ 64 - m) % 2 ^ 64 else m : Nat) : Int) =
        (if neg then - (m : Int) else (m : Int)) % 2 ^ 64) := by
    intro neg m hm
    cases neg with
    | false => simp only [Bool.false_eq_true, if_false]; omega
    | true => simp only [if_true]; omega
  have abs : ∀ (neg : Bool) (m : Nat), (if neg then - (m : Int) else (m : Int)).natAbs = m := by
    intro neg m; cases neg <;> simp
  constructor
  · intro h
    split at h
    · cases h
    · rename_i neg ds e he
      split at h
      · rename_i hr
        injection h with h
        injection h with h1 h2
        subst h2
        exact ⟨_, ⟨neg, ds, intPrefix_whole.1 he, rfl⟩, by rw [abs]; exact hr, by
          rw [← h1]; exact arith neg _ hr⟩
      · cases h
  · rintro ⟨z, ⟨neg, ds, hw, rfl⟩, hr, hn⟩
    rw [abs] at hr
    rw [intPrefix_whole.2 hw]
    simp only
    rw [if_pos hr, ← arith neg _ hr] at *
    congr 2
    exact (Int.natCast_inj.1 hn).symm

theorem isWhole_iff {α : Type} (f : Str → Got (α × Nat)) (vs : List Str) (i : Nat) (v : Str)
    (h : vs[i]? = some v) :
    (isWhole f vs i = .val true ∨ isWhole f vs i = .val false) ∧
    (isWhole f vs i = .val true ↔ ∃ a, f v = .val (a, v.length)) := by
  simp only [isWhole, atIdx, h]
  cases hf : f v with
  | val p =>
    obtain ⟨a, e⟩ := p
    by_cases he : e = v.length <;> simp [he]
  | _ => simp

/-- C18, 32-bit signed: the check answers (never throws), it accepts exactly the texts that
denote a number in range, and the getter then returns that number. -/
theorem C18_int32 (vs : List Str) (i : Nat) (v : Str) (h : vs[i]? = some v) :
    (isInteger32 vs i = .val true ∨ isInteger32 vs i = .val false) ∧
    (isInteger32 vs i = .val true ↔ ∃ z, Denotes v z ∧ - 2 ^ 31 ≤ z ∧ z < 2 ^ 31) ∧
    (∀ z, Denotes v z → - 2 ^ 31 ≤ z → z < 2 ^ 31 → getInteger32 vs i = .val z) := by
  obtain ⟨h1, h2⟩ := isWhole_iff (stoS 31) vs i v h
  refine ⟨h1, ?_, ?_⟩
  · unfold isInteger32
    rw [h2]
    simp only [stoS_iff]
  · intro z hz hl hu
    have := (stoS_iff 31 v z).2 ⟨hz, hl, hu⟩
    simp only [getInteger32, atIdx, h, this, Got.fst]

/-- C18, 64-bit signed. -/
theorem C18_int64 (vs : List Str) (i : Nat) (v : Str) (h : vs[i]? = some v) :
    (isInteger64 vs i = .val true ∨ isInteger64 vs i = .val false) ∧
    (isInteger64 vs i = .val true ↔ ∃ z, Denotes v z ∧ - 2 ^ 63 ≤ z ∧ z < 2 ^ 63) ∧
    (∀ z, Denotes v z → - 2 ^ 63 ≤ z → z < 2 ^ 63 → getInteger64 vs i = .val z) := by
  obtain ⟨h1, h2⟩ := isWhole_iff (stoS 63) vs i v h
  refine ⟨h1, ?_, ?_⟩
  · unfold isInteger64
    rw [h2]
    simp only [stoS_iff]
  · intro z hz hl hu
    have := (stoS_iff 63 v z).2 ⟨hz, hl, hu⟩
    simp only [getInteger64, atIdx, h, this, Got.fst]

/-- C18, unsigned, what the code does: both checks accept every written number of magnitude
below 2^64, whatever its sign; the getters reduce it modulo 2^64 and 2^32. -/
theorem C18_unsigned_rule (vs : List Str) (i : Nat) (v : Str) (h : vs[i]? = some v) :
    (isUnsigned64 vs i = .val true ∨ isUnsigned64 vs i = .val false) ∧
    (isUnsigned64 vs i = .val true ↔ ∃ z, Denotes v z ∧ z.natAbs < 2 ^ 64) ∧
    (isUnsigned32 vs i = isUnsigned64 vs i) ∧
    (∀ z, Denotes v z → z.natAbs < 2 ^ 64 →
      getUnsigned64 vs i = .val (z % 2 ^ 64).toNat ∧ getUnsigned32 vs i = .val (z % 2 ^ 32).toNat) := by
  obtain ⟨h1, h2⟩ := isWhole_iff stoU vs i v h
  refine ⟨h1, ?_, rfl, ?_⟩
  · unfold isUnsigned64
    rw [h2]
    simp only [stoU_iff]
    constructor
    · rintro ⟨a, z, e1, e2, -⟩; exact ⟨z, e1, e2⟩
    · rintro ⟨z, e1, e2⟩; exact ⟨(z % 2 ^ 64).toNat, z, e1, e2, by omega⟩
  · intro z hz hr
    have := (stoU_iff v (z % 2 ^ 64).toNat).2 ⟨z, hz, hr, by omega⟩
    simp only [getUnsigned64, getUnsigned32, atIdx, h, this, Got.fst, Got.val.injEq, true_and]
    omega

/-- C18, unsigned, the part that holds: numbers in range are accepted and returned exactly. -/
theorem C18_unsigned_partial (vs : List Str) (i : Nat) (v : Str) (h : vs[i]? = some v) (n : Nat)
    (hd : Denotes v n) :
    (n < 2 ^ 64 → isUnsigned64 vs i = .val true ∧ getUnsigned64 vs i = .val n) ∧
    (n < 2 ^ 32 → isUnsigned32 vs i = .val true ∧ getUnsigned32 vs i = .val n) := by
  obtain ⟨-, h2, h3, h4⟩ := C18_unsigned_rule vs i v h
  have e64 : n < 2 ^ 64 → ((n : Int) % 2 ^ 64).toNat = n := by omega
  have e32 : n < 2 ^ 32 → ((n : Int) % 2 ^ 32).toNat = n := by omega
  refine ⟨fun hn => ⟨h2.2 ⟨n, hd, by omega⟩, ?_⟩, fun hn => ⟨?_, ?_⟩⟩
  · rw [(h4 n hd (by omega)).1, e64 hn]
  · rw [h3]; exact h2.2 ⟨n, hd, by omega⟩
  · rw [(h4 n hd (by omega)).2, e32 hn]

/-- C18, every integer has a text, so the statements above cover all integers. -/
theorem C18_every_integer_written (z : Int) : Denotes (intText z) z := denotes_intText z

/-- C18 as stated fails: `-1` passes both unsigned checks and is read as the maximum, and
`4294967296` passes the 32-bit check and is read as 0. -/
theorem C18_refuted :
    (isUnsigned64 ["-1".toList] 0 = .val true ∧ getUnsigned64 ["-1".toList] 0 = .val (2 ^ 64 - 1)) ∧
    (isUnsigned32 ["-1".toList] 0 = .val true ∧ getUnsigned32 ["-1".toList] 0 = .val (2 ^ 32 - 1)) ∧
    (isUnsigned32 ["4294967296".toList] 0 = .val true ∧
      getUnsigned32 ["4294967296".toList] 0 = .val 0) := by
  decide +kernel

example : isInteger32 ["-2147483648".toList] 0 = .val true ∧ isInteger32 ["2147483648".toList] 0 = .val false ∧
    isInteger32 ["12a".toList] 0 = .val false ∧ getInteger32 [" +12".toList] 0 = .val 12 := by
  decide +kernel

/-! ### C19: scalars -/

theorem stod_cases (erange : Str → Bool) (v : Str) :
    (stod erange v = .invalid ∧ ¬ ∃ k, NumText (v.take k)) ∨
    (∃ k, k ≤ v.length ∧ NumText (v.take k) ∧
      ((erange (v.take k) = true ∧ stod erange v = .range) ∨
       (erange (v.take k) = false ∧ stod erange v = .val (v.take k)))) := by
  unfold stod
  cases h : strtodLen v with
  | none =>
    left
    refine ⟨rfl, ?_⟩
    intro hk
    have := strtodLen_isSome.2 hk
    rw [h] at this; cases this
  | some k =>
    right
    obtain ⟨h1, h2⟩ := strtodLen_spec h
    refine ⟨k, h1, h2, ?_⟩
    cases he : erange (v.take k) with
    | true => left; simp [he]
    | false => right; simp [he]

theorem stod_num {v : Str} (erange : Str → Bool) (h : NumText v) :
    stod erange v = if erange v then .range else .val v := by
  simp only [stod, strtodLen_text h, List.take_length]

/-- C19, what holds: a value that is entirely a number of representable size is accepted
and converted whole; a rejected value has no number in front; acceptance means the getter
does not throw. -/
theorem C19_scalar_partial (erange : Str → Bool) (vs : List Str) (i : Nat) (v : Str)
    (h : vs[i]? = some v) :
    (NumText v → erange v = false →
      isScalarAt erange vs i = .val true ∧ getScalar erange vs i = .val v) ∧
    (isScalarAt erange vs i = .val false ↔ ¬ ∃ k, NumText (v.take k)) ∧
    (isScalarAt erange vs i = .val true ↔ ∃ t, getScalar erange vs i = .val t) := by
  simp only [isScalarAt, getScalar, atIdx, h]
  refine ⟨?_, ?_, ?_⟩
  · intro hn he
    rw [stod_num erange hn, he]
    simp
  · rcases stod_cases erange v with ⟨e, hk⟩ | ⟨k, -, hk, ⟨-, e⟩ | ⟨-, e⟩⟩
    · rw [e]; simpa using hk
    · rw [e]; simp only [reduceCtorEq, false_iff]; exact fun h => h ⟨k, hk⟩
    · rw [e]; simp only [Got.val.injEq, Bool.true_eq_false, false_iff]; exact fun h => h ⟨k, hk⟩
  · rcases stod_cases erange v with ⟨e, hk⟩ | ⟨k, -, hk, ⟨-, e⟩ | ⟨-, e⟩⟩ <;> rw [e] <;> simp

/-- C19, vectors: a list of numbers of representable size is accepted and converted whole;
acceptance means that conversion does not throw. -/
theorem C19_vector_partial (erange : Str → Bool) (vs : List Str) :
    ((∀ v ∈ vs, NumText v ∧ erange v = false) →
      isNumericVector erange vs = .val true ∧ getNumericVector erange vs = .val vs) ∧
    (isNumericVector erange vs = .val true ↔ ∃ ts, getNumericVector erange vs = .val ts) := by
  induction vs with
  | nil => simp [isNumericVector, getNumericVector]
  | cons v vs ih =>
    simp only [isNumericVector, getNumericVector]
    constructor
    · intro h
      obtain ⟨h1, h2⟩ := h v (by simp)
      rw [stod_num erange h1, h2]
      obtain ⟨i1, i2⟩ := ih.1 (fun x hx => h x (by simp [hx]))
      simp [i1, i2]
    · cases stod erange v with
      | val t =>
        simp only
        rw [ih.2]
        cases getNumericVector erange vs <;> simp
      | _ => simp

theorem not_num_1abc : ¬ NumText "1abc".toList := by
  intro h
  have := strtodLen_text h
  revert this
  decide

/-- C19, vectors of a required length: accepted exactly if the number of values is right and the
values are numeric; a wrong number of values is never an error. -/
theorem C19_vector_length (erange : Str → Bool) (vs : List Str) (n : Nat) :
    (isNumericVectorN erange vs n = .val true ↔
      vs.length = n ∧ ∃ ts, getNumericVector erange vs = .val ts) ∧
    (vs.length ≠ n → isNumericVectorN erange vs n = .val false) := by
  rw [← (C19_vector_partial erange vs).2]
  unfold isNumericVectorN
  by_cases h : vs.length = n <;> simp [h]

/-- C19 as stated fails: `1abc` is accepted as scalar and as numeric vector, and a number
too large for the type makes both checks throw `out_of_range`. -/
theorem C19_refuted (erange : Str → Bool) (h1 : erange "1".toList = false)
    (h2 : erange "1e999".toList = true) :
    (¬ NumText "1abc".toList ∧ isScalarAt erange ["1abc".toList] 0 = .val true ∧
      isNumericVector erange ["1abc".toList] = .val true) ∧
    (isScalarAt erange ["1e999".toList] 0 = .range ∧
      isNumericVector erange ["1e999".toList] = .range) := by
  refine ⟨⟨not_num_1abc, ?_, ?_⟩, ?_, ?_⟩
  · have e : strtodLen "1abc".toList = some 1 := by decide
    have e2 : "1abc".toList.take 1 = "1".toList := by decide
    simp only [isScalarAt, atIdx, stod, e, e2, h1, List.getElem?_cons_zero]
    simp
  · have e : strtodLen "1abc".toList = some 1 := by decide
    have e2 : "1abc".toList.take 1 = "1".toList := by decide
    simp only [isNumericVector, stod, e, e2, h1]
    simp
  · have e : strtodLen "1e999".toList = some 5 := by decide
    have e2 : "1e999".toList.take 5 = "1e999".toList := by decide
    simp only [isScalarAt, atIdx, stod, e, e2, h2, List.getElem?_cons_zero, if_true]
  · have e : strtodLen "1e999".toList = some 5 := by decide
    have e2 : "1e999".toList.take 5 = "1e999".toList := by decide
    simp only [isNumericVector, stod, e, e2, h2, if_true]

example : strtodLen " -1.5e3".toList = some 7 ∧ strtodLen "0x1F".toList = some 4 ∧
    strtodLen ".5".toList = some 2 ∧ strtodLen "1e".toList = some 1 ∧ strtodLen "e5".toList = none ∧
    strtodLen "-Infinity".toList = some 9 ∧ strtodLen "nan(x)".toList = some 6 := by decide

/-- The white space, the digits and the hexadecimal digits of the number texts of C18 and C19,
character by character. -/
theorem C18_characters (c : Char) :
    (isSpaceC c = true ↔ c ∈ " \t\n\r\x0b\x0c".toList) ∧
    (isDigitC c = true ↔ c ∈ "0123456789".toList) ∧
    (isHexC c = true ↔ c ∈ "0123456789abcdefABCDEF".toList) := by
  have hd : isDigitC c = true ↔ c ∈ "0123456789".toList := by
    constructor
    · intro h
      have h := digit_le.1 h
      rw [← Char.ofNat_toNat c]
      have : c.toNat = 48 ∨ c.toNat = 49 ∨ c.toNat = 50 ∨ c.toNat = 51 ∨ c.toNat = 52 ∨ c.toNat = 53 ∨
          c.toNat = 54 ∨ c.toNat = 55 ∨ c.toNat = 56 ∨ c.toNat = 57 := by omega
      rcases this with e | e | e | e | e | e | e | e | e | e <;> rw [e] <;> decide
    · revert c
      decide
  refine ⟨?_, hd, ?_⟩
  · simp only [isSpaceC, Bool.or_eq_true, beq_iff_eq, String.toList]
    constructor
    · rintro (((((rfl | rfl) | rfl) | rfl) | rfl) | rfl) <;> decide
    · intro h
      change c ∈ [' ', '\t', '\n', '\r', '\x0b', '\x0c'] at h
      simp only [List.mem_cons, List.not_mem_nil, or_false] at h
      rcases h with rfl | rfl | rfl | rfl | rfl | rfl <;> decide
  · constructor
    · intro h
      simp only [isHexC, Bool.or_eq_true, Bool.and_eq_true, decide_eq_true_eq] at h
      rcases h with (h | ⟨h1, h2⟩) | ⟨h1, h2⟩
      · have := hd.1 h
        clear h hd
        revert c
        decide
      · have g1 : 97 ≤ c.toNat := h1
        have g2 : c.toNat ≤ 102 := h2
        rw [← Char.ofNat_toNat c]
        have : c.toNat = 97 ∨ c.toNat = 98 ∨ c.toNat = 99 ∨ c.toNat = 100 ∨ c.toNat = 101 ∨
            c.toNat = 102 := by omega
        rcases this with e | e | e | e | e | e <;> rw [e] <;> decide
      · have g1 : 65 ≤ c.toNat := h1
        have g2 : c.toNat ≤ 70 := h2
        rw [← Char.ofNat_toNat c]
        have : c.toNat = 65 ∨ c.toNat = 66 ∨ c.toNat = 67 ∨ c.toNat = 68 ∨ c.toNat = 69 ∨
            c.toNat = 70 := by omega
        rcases this with e | e | e | e | e | e <;> rw [e] <;> decide
    · clear hd
      revert c
      decide

/-- A place outside the list of values: every check and every getter throws `out_of_range`. -/
theorem C18_outside (erange : Str → Bool) (vs : List Str) (i : Nat) (h : vs.length ≤ i) :
    (getBool vs i = .range ∧ isBoolAt vs i = .range) ∧
    (isInteger32 vs i = .range ∧ isInteger64 vs i = .range ∧ isUnsigned32 vs i = .range ∧
      isUnsigned64 vs i = .range) ∧
    (getInteger32 vs i = .range ∧ getInteger64 vs i = .range ∧ getUnsigned32 vs i = .range ∧
      getUnsigned64 vs i = .range) ∧
    (isScalarAt erange vs i = .range ∧ getScalar erange vs i = .range) := by
  have e : vs[i]? = none := List.getElem?_eq_none h
  simp [getBool, isBoolAt, isInteger32, isInteger64, isUnsigned32, isUnsigned64, isWhole, getInteger32,
    getInteger64, getUnsigned32, getUnsigned64, isScalarAt, getScalar, atIdx, e]

example : getInteger32 ["1".toList] 1 = .range := (C18_outside (fun _ => false) _ 1 (by decide)).2.2.1.1

end Softlib
