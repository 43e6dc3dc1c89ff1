/-
What the messages of exceptions show (C116).  Model: FormatModel.lean.
-/
import Verif.General.FormatModel

namespace Softlib

open Softlib.General Softlib.General.Fmt

variable {F : Type}

/-- An argument as a reader expects to see it. -/
def plainArg (fe : F → List Char) : Arg F → List Char
  | .i32 v => intText v
  | .u32 n => natText n
  | .i64 v => intText v
  | .u64 n => natText n
  | .f64 x => fe x
  | .str t => t

/-- The message with the arguments in the places of the conversions. -/
def shownMsg (fe : F → List Char) : List Piece → List (Arg F) → List Char
  | [], _ => []
  | .lit t :: p, as => t ++ shownMsg fe p as
  | .arg _ :: p, a :: as => plainArg fe a ++ shownMsg fe p as
  | .arg _ :: _, [] => []

/-- The type a conversion is for. -/
def convTy : Conv → Ty
  | .d => .i32
  | .u => .u32
  | .lld => .i64
  | .llu => .u64
  | .zu => .u64
  | .e => .f64
  | .s => .str

/-- One argument of the right type for each conversion. -/
def fitsTypes : List Piece → List Ty → Bool
  | [], ts => ts.isEmpty
  | .lit _ :: p, ts => fitsTypes p ts
  | .arg c :: p, t :: ts => decide (convTy c = t) && fitsTypes p ts
  | .arg _ :: _, [] => false

/-- The literal text has no percent sign and no zero character. -/
def plainText : List Piece → Bool
  | [] => true
  | .lit t :: p => t.all (fun c => c ≠ '%' && c ≠ Char.ofNat 0) && plainText p
  | .arg _ :: p => plainText p

/-- No text argument has a zero character. -/
def NoZero (as : List (Arg F)) : Prop := ∀ t, Arg.str t ∈ as → Char.ofNat 0 ∉ t

theorem cStr_of_noZero {t : List Char} (h : Char.ofNat 0 ∉ t) : cStr t = t := by
  unfold cStr
  induction t with
  | nil => rfl
  | cons c t ih =>
    have hc : c ≠ Char.ofNat 0 := fun e => h (by simp [e])
    rw [List.takeWhile_cons, if_pos (by simpa using hc), ih (fun h' => h (by simp [h']))]

theorem fmt_literal (fe : F → List Char) (t r : List Char) (as : List (Arg F)) (h : '%' ∉ t) :
    fmt fe .lit (t ++ r) as = (fmt fe .lit r as).pre t := by
  induction t with
  | nil => cases e : fmt fe .lit r as <;> simp [FRes.pre, FRes.andThen, e]
  | cons c t ih =>
    have hc : c ≠ '%' := fun e => h (by simp [e])
    simp only [List.cons_append, fmt, if_neg hc]
    rw [ih (fun h' => h (by simp [h']))]
    cases fmt fe .lit r as <;> simp [FRes.pre, FRes.andThen]

theorem fmt_conv (fe : F → List Char) (c : Conv) (r : List Char) (as : List (Arg F)) :
    fmt fe .lit ('%' :: (c.letters ++ r)) as = use fe c (fmt fe .lit r) as := by
  cases c <;> simp [fmt, Conv.letters]

theorem put_right (fe : F → List Char) (c : Conv) (a : Arg F) (h : convTy c = a.ty) (hz : ∀ t, a = .str t → Char.ofNat 0 ∉ t) :
    put fe c a = .ok (plainArg fe a) := by
  cases c <;> cases a <;> simp_all [put, convTy, Arg.ty, plainArg]
  exact cStr_of_noZero hz

theorem plainText_lit {t : List Char} {p : List Piece} (h : plainText (.lit t :: p) = true) :
    '%' ∉ t ∧ Char.ofNat 0 ∉ t ∧ plainText p = true := by
  simp only [plainText, Bool.and_eq_true, List.all_eq_true] at h
  refine ⟨fun hc => ?_, fun hc => ?_, h.2⟩
  · have := h.1 _ hc; simp at this
  · have := h.1 _ hc; simp at this

/-- **C116** Formatting: a message without stray percent signs whose conversions get arguments of their types shows the literal text
and the arguments in their order; text appears as it is, percent signs included. -/
theorem C116_formatted (fe : F → List Char) (p : List Piece) (args : List (Arg F)) (hp : plainText p = true)
    (hf : fitsTypes p (args.map Arg.ty) = true) (hz : NoZero args) : fmt fe .lit (source p) args = .ok (shownMsg fe p args) := by
  induction p generalizing args with
  | nil => simp [source, fmt, shownMsg]
  | cons q p ih =>
    cases q with
    | lit t =>
      obtain ⟨h1, -, h3⟩ := plainText_lit hp
      rw [source, fmt_literal fe t _ args h1, ih args h3 (by simpa [fitsTypes] using hf) hz]
      simp [FRes.pre, FRes.andThen, shownMsg]
    | arg c =>
      cases args with
      | nil => simp [fitsTypes] at hf
      | cons a as =>
        simp only [List.map_cons, fitsTypes, Bool.and_eq_true, decide_eq_true_eq] at hf
        rw [source, fmt_conv, use, put_right fe c a hf.1 (fun t e => hz t (by simp [e])),
          FRes.andThen, ih as (by simpa [plainText] using hp) hf.2 (fun t ht => hz t (by simp [ht]))]
        simp [FRes.pre, FRes.andThen, shownMsg]

theorem cStr_source {p : List Piece} (hp : plainText p = true) : cStr (source p) = source p := by
  apply cStr_of_noZero
  induction p with
  | nil => simp [source]
  | cons q p ih =>
    cases q with
    | lit t =>
      obtain ⟨-, h2, h3⟩ := plainText_lit hp
      simp only [source, List.mem_append, not_or]
      exact ⟨h2, ih h3⟩
    | arg c =>
      have := ih (by simpa [plainText] using hp)
      cases c <;> simp only [source, Conv.letters, List.cons_append, List.nil_append, List.mem_cons, not_or] <;>
        simp only [this, not_false_eq_true, and_true] <;> decide

/-- The messages and arguments of a table go together. -/
def goodSite (s : Site) : Bool := plainText s.pieces && fitsTypes s.pieces s.types && !s.types.isEmpty

theorem sites_good : sites.all goodSite = true := by decide +kernel

/-- **C116** Every message of the table shows its arguments, whatever they are. -/
theorem C116_sites_partial (fe : F → List Char) (s : Site) (hs : s ∈ sites) (args : List (Arg F)) (ht : args.map Arg.ty = s.types)
    (hz : NoZero args) : fmt fe .lit (source s.pieces) args = .ok (shownMsg fe s.pieces args) := by
  have h := List.all_eq_true.mp sites_good s hs
  simp only [goodSite, Bool.and_eq_true] at h
  exact C116_formatted fe _ _ h.1.1 (by rw [ht]; exact h.1.2) hz

/-- **C116** The text of the exception: the message with its arguments, without its last character if it is 1000 characters or longer
(C31). -/
theorem C116_exception_partial (fe : F → List Char) (s : Site) (hs : s ∈ sites) (args : List (Arg F)) (ht : args.map Arg.ty = s.types)
    (hz : NoZero args) :
    exception fe (source s.pieces) args =
      .ok (if (shownMsg fe s.pieces args).length < 1000 then shownMsg fe s.pieces args else (shownMsg fe s.pieces args).dropLast) := by
  have h := List.all_eq_true.mp sites_good s hs
  simp only [goodSite, Bool.and_eq_true, Bool.not_eq_true'] at h
  unfold exception
  cases args with
  | nil =>
    rw [← ht] at h
    simp at h
  | cons a as =>
    simp only
    rw [cStr_source h.1.1, C116_sites_partial fe s hs _ ht hz, FRes.andThen, C31_exact]

/-- **C116** A message without arguments is taken as it is, also if it is put together from names with percent signs. -/
theorem C116_verbatim (fe : F → List Char) (msg : List Char) : exception fe msg [] = .ok msg := rfl

/-! ### Numbers -/

/-- A whole number read from its text, with a sign in front of a negative one. -/
def readBack : List Char → Int
  | '-' :: t => -(Nat.ofDigitChars 10 t 0 : Nat)
  | t => (Nat.ofDigitChars 10 t 0 : Nat)

theorem readBack_intText (v : Int) : readBack (intText v) = v := by
  unfold intText natText
  split
  · simp only [readBack, Nat.ofDigitChars_ten_toDigits]
    omega
  · have hd : ∀ t, Nat.toDigits 10 v.natAbs ≠ '-' :: t := by
      intro t e
      have : '-' ∈ Nat.toDigits 10 v.natAbs := by rw [e]; exact List.mem_cons_self
      exact absurd (Nat.isDigit_of_mem_toDigits (by decide) (by decide) this) (by decide)
    unfold readBack
    split
    · rename_i t e; exact absurd e (hd t)
    · rw [Nat.ofDigitChars_ten_toDigits]; omega

/-- **C116** The text of a whole number, of either sign, reads back as the number. -/
theorem C116_integers (fe : F → List Char) (v : Int) (n : Nat) :
    (∃ t, fmt fe .lit "%d".toList [.i32 v] = .ok t ∧ readBack t = v) ∧ (∃ t, fmt fe .lit "%lld".toList [.i64 v] = .ok t ∧ readBack t = v) ∧
      (∃ t, fmt fe .lit "%u".toList [.u32 n] = .ok t ∧ readBack t = n) ∧ (∃ t, fmt fe .lit "%zu".toList [.u64 n] = .ok t ∧ readBack t = n) ∧
      (∃ t, fmt fe .lit "%llu".toList [.u64 n] = .ok t ∧ readBack t = n) := by
  have hn : natText n = intText n := by
    unfold intText; rw [if_neg (by omega)]; rfl
  refine ⟨⟨intText v, ?_, readBack_intText v⟩, ⟨intText v, ?_, readBack_intText v⟩, ⟨natText n, ?_, ?_⟩, ⟨natText n, ?_, ?_⟩,
    ⟨natText n, ?_, ?_⟩⟩
  · simp [fmt, use, put, FRes.pre, FRes.andThen]
  · simp [fmt, use, put, FRes.pre, FRes.andThen]
  · simp [fmt, use, put, FRes.pre, FRes.andThen]
  · rw [hn]; exact readBack_intText n
  · simp [fmt, use, put, FRes.pre, FRes.andThen]
  · rw [hn]; exact readBack_intText n
  · simp [fmt, use, put, FRes.pre, FRes.andThen]
  · rw [hn]; exact readBack_intText n

theorem one_conv (fe : F → List Char) (c : Conv) (a : Arg F) : fmt fe .lit (source [.arg c]) [a] = put fe c a := by
  simp only [source]
  rw [fmt_conv, use]
  cases put fe c a <;> simp [FRes.andThen, FRes.pre, fmt]

/-- **C116** A signed number given to a conversion for unsigned ones, and the other way round: defined exactly if both types have the
number, and then its text reads back. -/
theorem C116_exchange (fe : F → List Char) (v : Int) (n : Nat) :
    (fmt fe .lit "%u".toList [.i32 v] = if 0 ≤ v then .ok (intText v) else .ub) ∧
      (fmt fe .lit "%llu".toList [.i64 v] = if 0 ≤ v then .ok (intText v) else .ub) ∧
      (fmt fe .lit "%zu".toList [.i64 v] = if 0 ≤ v then .ok (intText v) else .ub) ∧
      (fmt fe .lit "%d".toList [.u32 n] = if (n : Int) < 2 ^ 31 then .ok (intText n) else .ub) ∧
      (fmt fe .lit "%lld".toList [.u64 n] = if (n : Int) < 2 ^ 63 then .ok (intText n) else .ub) := by
  have hn : natText n = intText n := by
    unfold intText; rw [if_neg (by omega)]; rfl
  refine ⟨one_conv fe .u _, one_conv fe .llu _, one_conv fe .zu _, (one_conv fe .d _).trans ?_, (one_conv fe .lld _).trans ?_⟩
  · simp only [put, hn]
    congr 1
    simp only [eq_iff_iff]; omega
  · simp only [put, hn]
    congr 1
    simp only [eq_iff_iff]; omega

/-! ### Signs -/

theorem signSites_good : signSites.all (fun s => plainText s.pieces && decide (s.types = [.u32]) &&
    (match s.pieces with | [.lit _, .arg .d, .lit _] => true | _ => false)) = true := by decide +kernel

/-- **C116** Unsigned numbers shown by `%d`: right up to 2147483647, undefined above. -/
theorem C116_sign_partial (fe : F → List Char) (s : Site) (hs : s ∈ signSites) (n : Nat) :
    fmt fe .lit (source s.pieces) [.u32 n] =
      if n ≤ 2147483647 then .ok (shownMsg fe s.pieces [.u32 n]) else .ub := by
  have h := List.all_eq_true.mp signSites_good s hs
  obtain ⟨f, l, ps, ts⟩ := s
  simp only [Bool.and_eq_true, decide_eq_true_eq] at h
  obtain ⟨⟨h1, -⟩, h2⟩ := h
  split at h2
  · rename_i t t'
    obtain ⟨k1, -, k2⟩ := plainText_lit h1
    simp only [plainText] at k2
    obtain ⟨k3, -, -⟩ := plainText_lit (t := t') (p := []) (by simpa [plainText] using k2)
    simp only [source]
    rw [fmt_literal fe t _ _ k1, fmt_conv, use, put]
    split
    · rw [FRes.andThen, fmt_literal fe t' _ _ k3]
      simp [fmt, FRes.pre, FRes.andThen, shownMsg, plainArg]
    · rfl
  · cases h2

/-- **C116** (refuted) An index of -1 given to a matrix with bounds checks arrives as 4294967295 and its message is undefined. -/
theorem C116_refuted_sign (fe : F → List Char) :
    ∃ s ∈ signSites, s.file = "include/softlib/General/Matrix.tcc" ∧ fmt fe .lit (source s.pieces) [.u32 4294967295] = .ub := by
  refine ⟨_, List.mem_cons_self, rfl, ?_⟩
  rw [C116_sign_partial fe _ List.mem_cons_self]
  rfl

/-! ### Sizes -/

/-- No argument of the type is right for the conversion. -/
def neverRight : Conv → Ty → Bool
  | .d, .i32 | .d, .u32 | .u, .u32 | .u, .i32 => false
  | .lld, .i64 | .lld, .u64 | .llu, .u64 | .llu, .i64 | .zu, .u64 | .zu, .i64 => false
  | .e, .f64 | .s, .str => false
  | _, _ => true

/-- A conversion gets no argument or one of a wrong type. -/
def illTyped : List Piece → List Ty → Bool
  | [], _ => false
  | .lit _ :: p, ts => illTyped p ts
  | .arg c :: p, t :: ts => neverRight c t || illTyped p ts
  | .arg _ :: _, [] => true

theorem put_never (fe : F → List Char) (c : Conv) (a : Arg F) (h : neverRight c a.ty = true) : put fe c a = .ub := by
  cases c <;> cases a <;> simp_all [neverRight, Arg.ty, put]

theorem put_not_other (fe : F → List Char) (c : Conv) (a : Arg F) : put fe c a ≠ .other := by
  cases c <;> cases a <;> simp [put] <;> split <;> simp

/-- **C116** An argument that is missing or of another kind or size makes the message undefined. -/
theorem C116_mismatch (fe : F → List Char) (p : List Piece) (args : List (Arg F)) (hp : plainText p = true)
    (h : illTyped p (args.map Arg.ty) = true) : fmt fe .lit (source p) args = .ub := by
  induction p generalizing args with
  | nil => simp [illTyped] at h
  | cons q p ih =>
    cases q with
    | lit t =>
      obtain ⟨h1, -, h3⟩ := plainText_lit hp
      rw [source, fmt_literal fe t _ args h1, ih args h3 (by simpa [illTyped] using h)]
      rfl
    | arg c =>
      rw [source, fmt_conv]
      cases args with
      | nil => rfl
      | cons a as =>
        simp only [List.map_cons, illTyped, Bool.or_eq_true] at h
        rw [use]
        rcases h with h | h
        · rw [put_never fe c a h]; rfl
        · rw [ih as (by simpa [plainText] using hp) h]
          cases e : put fe c a with
          | ub => rfl
          | other => exact absurd e (put_not_other fe c a)
          | ok t => rfl

theorem mismatched_ill : mismatchedSites.all (fun s => plainText s.pieces && illTyped s.pieces s.types) = true := by decide +kernel

/-- **C116** (refuted) The messages for SOFT and LUKE distributions of wrong size and for unreadable matrices in SDT files are undefined,
whatever the sizes. -/
theorem C116_refuted_sizes (fe : F → List Char) (s : Site) (hs : s ∈ mismatchedSites) (args : List (Arg F))
    (ht : args.map Arg.ty = s.types) : fmt fe .lit (source s.pieces) args = .ub := by
  have h := List.all_eq_true.mp mismatched_ill s hs
  simp only [Bool.and_eq_true] at h
  exact C116_mismatch fe _ _ h.1 (by rw [ht]; exact h.2)

/-! ### File names in formats -/

/-- The part of the format behind the file name. -/
def verTail (v : List Char) : List Piece :=
  [.lit ": Verification vector '".toList, .lit v, .lit "' has more than nr (= ".toList, .arg .u, .lit ") elements.".toList]

theorem fileNameFormat_eq (f v : List Char) : fileNameFormat f v = f ++ source (verTail v) := by
  have e : "' has more than nr (= %u) elements.".toList =
      "' has more than nr (= ".toList ++ ('%' :: 'u' :: ") elements.".toList) := by decide +kernel
  simp only [fileNameFormat, verTail, source, Conv.letters, e]
  simp

theorem verTail_plain {v : List Char} (hv : v.all (fun c => c ≠ '%' && c ≠ Char.ofNat 0) = true) : plainText (verTail v) = true := by
  simp only [verTail, plainText, hv, Bool.true_and, Bool.and_true]
  decide +kernel

theorem verTail_head (v : List Char) : ∃ r, source (verTail v) = ':' :: r := by
  have e : ": Verification vector '".toList = ':' :: " Verification vector '".toList := by decide +kernel
  simp only [verTail, source, e, List.cons_append]
  exact ⟨_, rfl⟩

theorem pre_ok {t u : List Char} {x : FRes} (h : x.pre t = .ok u) : ∃ r, x = .ok r ∧ u = t ++ r := by
  cases x with
  | ub => cases h
  | other => cases h
  | ok r =>
    simp only [FRes.pre, FRes.andThen, FRes.ok.injEq] at h
    exact ⟨r, rfl, h.symm⟩

theorem use_ok {fe : F → List Char} {c : Conv} {k : List (Arg F) → FRes} {as : List (Arg F)} {u : List Char}
    (h : use fe c k as = .ok u) : ∃ a as' r, as = a :: as' ∧ k as' = .ok r := by
  cases as with
  | nil => cases h
  | cons a as' =>
    simp only [use] at h
    cases e : put fe c a with
    | ub => rw [e] at h; cases h
    | other => rw [e] at h; cases h
    | ok t =>
      rw [e] at h
      obtain ⟨r, hr, -⟩ := pre_ok h
      exact ⟨a, as', r, rfl, hr⟩

/-- Without arguments the text behind the file name cannot be formatted. -/
theorem fmt_noArg (fe : F → List Char) (T : List Char) (hT : ∃ r, T = ':' :: r) (h0 : fmt fe .lit T [] = .ub) (f : List Char) :
    ∀ m t, fmt fe m (f ++ T) [] ≠ .ok t := by
  obtain ⟨r, hr⟩ := hT
  induction f with
  | nil =>
    intro m t
    cases m
    · simp [h0]
    all_goals rw [hr]; simp [fmt]
  | cons c f ih =>
    intro m t h
    rw [List.cons_append] at h
    cases m <;> simp only [fmt] at h <;> repeat' split at h
    all_goals first
      | exact ih _ _ h
      | (obtain ⟨r', e, -⟩ := pre_ok h; exact ih _ _ e)
      | (obtain ⟨a, as', r', e, -⟩ := use_ok h; cases e)
      | cases h

/-- With one argument the text gets shorter by each percent sign of the file name. -/
theorem fmt_oneArg (fe : F → List Char) (T : List Char) (hT : ∃ r, T = ':' :: r) (h0 : fmt fe .lit T [] = .ub) (a : Arg F) (T' : List Char)
    (h1 : fmt fe .lit T [a] = .ok T') (f : List Char) :
    (∀ t, fmt fe .lit (f ++ T) [a] = .ok t → t.length + (if '%' ∈ f then 1 else 0) ≤ f.length + T'.length) ∧
    (∀ t, fmt fe .pct (f ++ T) [a] = .ok t → t.length ≤ f.length + T'.length) ∧
    (∀ t, fmt fe .l (f ++ T) [a] ≠ .ok t) ∧ (∀ t, fmt fe .ll (f ++ T) [a] ≠ .ok t) ∧ (∀ t, fmt fe .z (f ++ T) [a] ≠ .ok t) := by
  have key : ∀ (c : Conv) (f t : List Char), use fe c (fmt fe .lit (f ++ T)) [a] ≠ .ok t := by
    intro c f t h
    obtain ⟨b, as', r', e, e2⟩ := use_ok h
    cases e
    exact fmt_noArg fe T hT h0 f _ _ e2
  obtain ⟨r, hr⟩ := id hT
  induction f with
  | nil =>
    refine ⟨fun t h => ?_, fun t h => ?_, fun t h => ?_, fun t h => ?_, fun t h => ?_⟩
    · rw [List.nil_append, h1] at h
      cases h
      simp
    all_goals
      rw [hr] at h
      simp [fmt] at h
  | cons c f ih =>
    obtain ⟨i1, i2, i3, i4, i5⟩ := ih
    refine ⟨fun t h => ?_, fun t h => ?_, fun t h => ?_, fun t h => ?_, fun t h => ?_⟩
    · rw [List.cons_append] at h
      simp only [fmt] at h
      split at h
      · have := i2 t h
        simp only [List.length_cons]
        split <;> omega
      · rename_i hc
        obtain ⟨r', e, rfl⟩ := pre_ok h
        have := i1 r' e
        have hc' : ¬ '%' = c := fun e => hc e.symm
        simp only [List.length_append, List.length_cons, List.length_nil, List.mem_cons, hc', false_or]
        omega
    · rw [List.cons_append] at h
      simp only [fmt] at h
      split at h
      · obtain ⟨r', e, rfl⟩ := pre_ok h
        have := i1 r' e
        simp only [List.length_append, List.length_cons, List.length_nil]
        omega
      · exfalso
        repeat' split at h
        all_goals first
          | exact key _ _ _ h
          | exact i3 _ h
          | exact i5 _ h
          | cases h
    all_goals
      rw [List.cons_append] at h
      simp only [fmt] at h
      repeat' split at h
      all_goals first
        | exact i4 _ h
        | exact key _ _ _ h
        | cases h

/-- **C116** The message about a verification vector that is too long shows the name of the file exactly if that has no percent sign. -/
theorem C116_filename_iff (fe : F → List Char) (f v : List Char) (hv : v.all (fun c => c ≠ '%' && c ≠ Char.ofNat 0) = true) (n : Nat) :
    fmt fe .lit (fileNameFormat f v) [.u32 n] =
        .ok (f ++ ": Verification vector '".toList ++ v ++ "' has more than nr (= ".toList ++ natText n ++ ") elements.".toList) ↔
      '%' ∉ f := by
  have hp := verTail_plain hv
  have h1 : fmt fe .lit (source (verTail v)) [.u32 n] = .ok (shownMsg fe (verTail v) [.u32 n]) :=
    C116_formatted fe _ _ hp rfl (fun t ht => by simp at ht)
  have h0 : fmt fe .lit (source (verTail v)) ([] : List (Arg F)) = .ub := C116_mismatch fe _ _ hp rfl
  have e : shownMsg fe (verTail v) [.u32 n] =
      ": Verification vector '".toList ++ v ++ "' has more than nr (= ".toList ++ natText n ++ ") elements.".toList := by
    simp only [shownMsg, verTail, plainArg]
    simp
  rw [fileNameFormat_eq]
  constructor
  · intro h hf
    have := (fmt_oneArg fe _ (verTail_head v) h0 _ _ h1 f).1 _ h
    rw [if_pos hf, e] at this
    simp only [List.length_append] at this
    omega
  · intro hf
    rw [fmt_literal fe f _ _ hf, h1, e]
    simp [FRes.pre, FRes.andThen]

/-- **C116** (refuted) A file name with `%s` makes that message undefined. -/
theorem C116_refuted_filename (fe : F → List Char) (v : List Char) (n : Nat) :
    fmt fe .lit (fileNameFormat ['%', 's'] v) [.u32 n] = .ub := by
  simp [fileNameFormat, fmt, use, put, FRes.andThen]

example : fmt (fun x : Nat => natText x) .lit (source [.lit "No setting with name '".toList, .arg .s, .lit "'.".toList]) [.str "100%s".toList] =
    .ok "No setting with name '100%s'.".toList := by decide +kernel
example : ∃ s ∈ sites, s.file = "src/Configuration/ConfigBlock.cpp" ∧
    exception (fun x : Nat => natText x) (source s.pieces) [.str "%s%n".toList, .str "b".toList] =
      .ok "No setting with name '%s%n' in block 'b'.".toList := by
  refine ⟨⟨"src/Configuration/ConfigBlock.cpp", 395, _, _⟩, List.mem_append_left _ (List.mem_append_left _
    (List.mem_cons_of_mem _ (List.mem_cons_of_mem _ List.mem_cons_self))), rfl, ?_⟩
  decide +kernel

end Softlib
