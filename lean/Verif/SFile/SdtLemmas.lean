/-
Lemmas on the SDT format: what a written variable looks like to the reader.
-/
import Verif.SFile.SdtModel
import Verif.Config.SettingLemmas

namespace Softlib.SFile

open Softlib.Config

theorem linesFrom_newline (a r : Str) (h : '\n' ∉ a) : ∀ acc : Str,
    linesFrom acc (a ++ '\n' :: r) = (acc.reverse ++ a) :: linesFrom [] r := by
  induction a with
  | nil => intro acc; simp [linesFrom]
  | cons c a ih =>
    intro acc
    simp only [List.mem_cons, not_or] at h
    simp only [List.cons_append, linesFrom]
    rw [if_neg (fun e => h.1 e.symm), ih h.2]
    simp

theorem lines_newline (a r : Str) (h : '\n' ∉ a) : lines (a ++ '\n' :: r) = a :: lines r := by
  rw [lines, linesFrom_newline a r h]; rfl

theorem natText_eq (n : Nat) : natText n = digitsOf n := by
  induction n using Nat.strongRecOn with
  | ind n ih =>
    rw [natText, digitsOf]
    split
    · rfl
    · rename_i h
      rw [ih _ (by omega)]

theorem intOut_eq (z : Int) : intOut z = intText z := by
  unfold intOut intText
  rw [natText_eq]

theorem newline_space : isSpaceC '\n' = true := by decide

theorem no_newline {a : Str} (h : ∀ c ∈ a, isSpaceC c = false) : '\n' ∉ a := by
  intro hm
  have := h _ hm
  rw [newline_space] at this
  cases this

theorem natText_digits (n : Nat) : natText n ≠ [] ∧ (∀ c ∈ natText n, isDigitC c = true) ∧
    decVal (natText n) = n := by
  rw [natText_eq]; exact digitsOf_spec n

theorem intOut_no_newline (z : Int) : '\n' ∉ intOut z := by
  have := (natText_digits z.natAbs).2.1
  unfold intOut
  intro h
  rcases List.mem_append.1 h with h | h
  · split at h
    · simp only [List.mem_cons, List.not_mem_nil, or_false] at h
      exact absurd h (by decide)
    · cases h
  · exact absurd (this _ h) (by decide)

/-! ### extraction -/

theorem readWord_text {ws w rest : Str} (hws : ∀ c ∈ ws, isSpaceC c = true)
    (hw : ∀ c ∈ w, isSpaceC c = false) (hne : w ≠ [])
    (hr : rest = [] ∨ ∃ r, rest = ' ' :: r) : readWord (ws ++ w ++ rest) = some (w, rest) := by
  have n1 : NoHead isSpaceC (w ++ rest) := by
    intro c r e
    cases w with
    | nil => exact absurd rfl hne
    | cons x w =>
      simp only [List.cons_append, List.cons.injEq] at e
      rw [← e.1]
      exact hw x (by simp)
  have n2 : NoHead (fun c => !isSpaceC c) rest := by
    rcases hr with rfl | ⟨r, rfl⟩
    · exact noHead_nil _
    · exact noHead_cons (by decide)
  have s1 := span_append hws n1
  have s2 := span_append (p := fun c => !isSpaceC c) (a := w) (b := rest)
    (fun c hc => by simp [hw c hc]) n2
  simp only [readWord]
  rw [List.append_assoc, s1.2, s2.1, s2.2, if_neg hne]

theorem space_not_digit {rest : Str} (hr : rest = [] ∨ ∃ r, rest = ' ' :: r) : NoHead isDigitC rest := by
  rcases hr with rfl | ⟨r, rfl⟩
  · exact noHead_nil _
  · exact noHead_cons (by decide)

theorem readSize_text {ws rest : Str} (n : Nat) (hws : ∀ c ∈ ws, isSpaceC c = true)
    (hr : rest = [] ∨ ∃ r, rest = ' ' :: r) (hn : n < 2 ^ 64) :
    readSize (ws ++ natText n ++ rest) = some (n, rest) := by
  obtain ⟨h1, h2, h3⟩ := natText_digits n
  have hw : Written (ws ++ natText n) false (natText n) :=
    ⟨ws, [], by simp, hws, .inl rfl, rfl, h1, h2⟩
  simp only [readSize, intPrefix_of_written hw (space_not_digit hr), h3, if_pos hn]
  rw [List.drop_left]
  rfl

theorem readInt_text {ws rest : Str} (z : Int) (hws : ∀ c ∈ ws, isSpaceC c = true)
    (hr : rest = [] ∨ ∃ r, rest = ' ' :: r) (hz : - 2 ^ 31 ≤ z ∧ z < 2 ^ 31) :
    readInt (ws ++ intOut z ++ rest) = some (z, rest) := by
  obtain ⟨h1, h2, h3⟩ := natText_digits z.natAbs
  by_cases hneg : z < 0
  · have hw : Written (ws ++ intOut z) true (natText z.natAbs) :=
      ⟨ws, ['-'], by simp [intOut, hneg], hws, .inr (.inr rfl), rfl, h1, h2⟩
    have hv : signed true (natText z.natAbs) = z := by
      simp only [signed, h3, if_true]; omega
    simp only [readInt, intPrefix_of_written hw (space_not_digit hr), hv, if_pos hz]
    rw [List.drop_left]
  · have hw : Written (ws ++ intOut z) false (natText z.natAbs) :=
      ⟨ws, [], by simp [intOut, hneg], hws, .inl rfl, rfl, h1, h2⟩
    have hv : signed false (natText z.natAbs) = z := by
      simp only [signed, h3]
      simp only [Bool.false_eq_true, if_false]; omega
    simp only [readInt, intPrefix_of_written hw (space_not_digit hr), hv, if_pos hz]
    rw [List.drop_left]

theorem byteInt_range (b : UInt8) : - 2 ^ 31 ≤ byteInt b ∧ byteInt b < 2 ^ 31 := by
  have := b.toNat_lt
  unfold byteInt
  split <;> omega

theorem intByte_byteInt (b : UInt8) : intByte (byteInt b) = b := by
  have hlt := b.toNat_lt
  have : (byteInt b % 256).toNat = b.toNat := by
    unfold byteInt
    split <;> omega
  unfold intByte
  rw [this]
  exact UInt8.ofNat_toNat

theorem readBytes_blank {s : Str} (h : ∀ c ∈ s, isSpaceC c = true) : readBytes s = [] := by
  have : readInt s = none := by
    have hp : intPrefix s = none := by
      have hd : s.dropWhile isSpaceC = [] := by
        have := (span_append (a := s) (b := []) h (noHead_nil _)).2
        simpa using this
      simp only [intPrefix, hd]
      rfl
    simp only [readInt, hp]
  rw [readBytes]
  split
  · rfl
  · rename_i h2
    rw [this] at h2; cases h2

theorem readBytes_text (val : List UInt8) : ∀ ws : Str, (∀ c ∈ ws, isSpaceC c = true) →
    readBytes (ws ++ val.flatMap (fun b => intOut (byteInt b) ++ [' '])) = val := by
  induction val with
  | nil =>
    intro ws h
    simpa using readBytes_blank h
  | cons b val ih =>
    intro ws h
    have hr : readInt (ws ++ (b :: val).flatMap (fun b => intOut (byteInt b) ++ [' '])) =
        some (byteInt b, ' ' :: val.flatMap (fun b => intOut (byteInt b) ++ [' '])) := by
      rw [List.flatMap_cons, show ws ++ (intOut (byteInt b) ++ [' '] ++
        val.flatMap (fun b => intOut (byteInt b) ++ [' '])) =
        ws ++ intOut (byteInt b) ++ (' ' :: val.flatMap (fun b => intOut (byteInt b) ++ [' '])) from by simp]
      exact readInt_text _ h (.inr ⟨_, rfl⟩) (byteInt_range b)
    rw [readBytes]
    split
    · rename_i h2; rw [hr] at h2; cases h2
    · rename_i z r h2
      rw [hr] at h2
      simp only [Option.some.injEq, Prod.mk.injEq] at h2
      rw [← h2.1, ← h2.2, intByte_byteInt]
      have := ih [' '] (by intro c hc; simp only [List.mem_cons, List.not_mem_nil, or_false] at hc; subst hc; decide)
      rw [show ' ' :: val.flatMap (fun b => intOut (byteInt b) ++ [' ']) =
        [' '] ++ val.flatMap (fun b => intOut (byteInt b) ++ [' ']) from rfl, this]

end Softlib.SFile

namespace Softlib

open Softlib.Config Softlib.SFile

/-- The number `x` is written without line breaks, and reading what was written, after blanks
and up to a blank or the end, gives `x` back. -/
def Exact {α : Type} (c : Codec α) (x : α) : Prop :=
  '\n' ∉ c.fmt x ∧
  ∀ ws rest : Str, (∀ ch ∈ ws, isSpaceC ch = true) → (rest = [] ∨ ∃ r, rest = ' ' :: r) →
    c.read (ws ++ c.fmt x ++ rest) = some (x, rest)

/-- A usable variable name: not empty and without white space. -/
def NameOk (n : Str) : Prop := n ≠ [] ∧ ∀ c ∈ n, isSpaceC c = false

/-- A variable that the format can hold. -/
inductive Storable {α : Type} (c : Codec α) : Var α → Prop where
  | mat (n : Str) (ncols : Nat) (rows : List (List α)) : NameOk n → rows ≠ [] →
      rows.length < 2 ^ 64 → ncols < 2 ^ 64 → (∀ r ∈ rows, r.length = ncols) →
      (∀ r ∈ rows, ∀ x ∈ r, Exact c x) → Storable c (.mat n ncols rows)
  | attr (d n : Str) (x : α) : NameOk (d ++ '_' :: n) → Exact c x → Storable c (.attr d n x)
  | str (n : Str) (v : List UInt8) : NameOk n → v.length < 2 ^ 64 → Storable c (.str n v)

/-- The matrix a write leaves under the name `n`, if any. -/
def matrixOf {α : Type} (n : Str) : Var α → Option (Matrix α)
  | .mat m ncols rows => if m = n then some ⟨rows.length, ncols, rows⟩ else none
  | .attr d m x => if d ++ '_' :: m = n then some ⟨1, 1, [[x]]⟩ else none
  | .str _ _ => none

/-- The string a write leaves under the name `n`, if any. -/
def stringOf {α : Type} (n : Str) : Var α → Option (List UInt8)
  | .str m v => if m = n then some v else none
  | _ => none

end Softlib

namespace Softlib.SFile

open Softlib.Config

theorem blank_space : ∀ c ∈ [' '], isSpaceC c = true := by decide

theorem rowText_no_newline {α : Type} (c : Codec α) (row : List α) (h : ∀ x ∈ row, Exact c x) :
    '\n' ∉ rowText c row := by
  intro hm
  simp only [rowText, List.mem_flatMap] at hm
  obtain ⟨x, hx, hm⟩ := hm
  rcases List.mem_append.1 hm with hm | hm
  · exact (h x hx).1 hm
  · simp only [List.mem_cons, List.not_mem_nil, or_false] at hm
    exact absurd hm (by decide)

theorem readRow_text {α : Type} (c : Codec α) (row : List α) (h : ∀ x ∈ row, Exact c x) :
    ∀ ws : Str, (∀ ch ∈ ws, isSpaceC ch = true) →
      readRow c row.length (ws ++ rowText c row) = some row := by
  induction row with
  | nil => intro ws _; rfl
  | cons x row ih =>
    intro ws hws
    have hr := (h x (by simp)).2 ws (' ' :: rowText c row) hws (.inr ⟨_, rfl⟩)
    have e : ws ++ rowText c (x :: row) = ws ++ c.fmt x ++ ' ' :: rowText c row := by
      simp [rowText]
    rw [e, List.length_cons, readRow, hr]
    simp only
    rw [show ' ' :: rowText c row = [' '] ++ rowText c row from rfl,
      ih (fun y hy => h y (by simp [hy])) [' '] blank_space]
    rfl

theorem readRows_text {α : Type} (c : Codec α) (ncols : Nat) (rows : List (List α))
    (hlen : ∀ r ∈ rows, r.length = ncols) (h : ∀ r ∈ rows, ∀ x ∈ r, Exact c x) (rest : List Str) :
    readRows c ncols rows.length (rows.map (rowText c) ++ rest) = some rows := by
  induction rows with
  | nil => rfl
  | cons r rows ih =>
    rw [List.length_cons, readRows]
    simp only [List.map_cons, List.cons_append, List.headD_cons, List.tail_cons]
    have := readRow_text c r (h r (by simp)) [] (by intro c hc; cases hc)
    rw [List.nil_append, hlen r (by simp)] at this
    rw [this]
    simp only
    rw [ih (fun r hr => hlen r (by simp [hr])) (fun r hr => h r (by simp [hr]))]
    rfl

theorem lines_rows {α : Type} (c : Codec α) (rows : List (List α))
    (h : ∀ r ∈ rows, ∀ x ∈ r, Exact c x) (s : Str) :
    lines (rows.flatMap (fun r => rowText c r ++ ['\n']) ++ s) = rows.map (rowText c) ++ lines s := by
  induction rows with
  | nil => rfl
  | cons r rows ih =>
    rw [List.flatMap_cons, show rowText c r ++ ['\n'] ++ rows.flatMap (fun r => rowText c r ++ ['\n']) ++ s =
      rowText c r ++ '\n' :: (rows.flatMap (fun r => rowText c r ++ ['\n']) ++ s) from by simp]
    rw [lines_newline _ _ (rowText_no_newline c r (h r (by simp))),
      ih (fun r hr => h r (by simp [hr]))]
    rfl

theorem lookup_emplace {β : Type} (l : List (Str × β)) (n k : Str) (b : β) :
    lookup (emplace l n b) k = (lookup l k).or (if n = k then some b else none) := by
  unfold emplace
  split
  · rename_i h
    by_cases e : n = k
    · subst e
      rw [if_pos rfl]
      cases hl : lookup l n with
      | none => rw [hl] at h; cases h
      | some x => rfl
    · rw [if_neg e, Option.or_none]
  · rename_i h
    simp only [lookup, List.find?_append, List.find?_cons, List.find?_nil]
    by_cases e : n = k
    · subst e
      have : lookup l n = none := by
        cases hl : lookup l n with
        | none => rfl
        | some x => rw [hl] at h; simp at h
      simp only [lookup, Option.map_eq_none_iff] at this
      rw [this, if_pos rfl]
      simp
    · rw [if_neg e]
      simp only [show (n == k) = false from by simp [e], Option.or_none]

theorem name_no_newline {n : Str} (h : NameOk n) : '\n' ∉ n := no_newline h.2

theorem digits_no_newline (n : Nat) : '\n' ∉ natText n := by
  intro h
  exact absurd ((natText_digits n).2.1 _ h) (by decide)

/-- Reading the heading of a matrix. -/
theorem header_matrix {n : Str} {r k : Nat} (hn : NameOk n) (hr : r < 2 ^ 64) (hk : k < 2 ^ 64) :
    let l := "@matrix ".toList ++ n ++ ' ' :: (natText r ++ ' ' :: natText k)
    l ≠ [] ∧ '\n' ∉ l ∧ ∃ s1, readWord l = some ("@matrix".toList, s1) ∧
      ∃ s2, readWord s1 = some (n, s2) ∧ ∃ s3, readSize s2 = some (r, s3) ∧ readSize s3 = some (k, []) := by
  intro l
  refine ⟨by simp [l], ?_, ?_⟩
  · intro h
    have h : '\n' ∈ "@matrix ".toList ∨ '\n' ∈ n ∨ '\n' = ' ' ∨ '\n' ∈ natText r ∨ '\n' ∈ natText k := by
      simp only [l, List.mem_append, List.mem_cons] at h
      rcases h with (h | h) | h | h | h | h
      · exact .inl h
      · exact .inr (.inl h)
      · exact .inr (.inr (.inl h))
      · exact .inr (.inr (.inr (.inl h)))
      · exact .inr (.inr (.inl h))
      · exact .inr (.inr (.inr (.inr h)))
    rcases h with h | h | h | h | h
    · exact absurd h (by decide)
    · exact name_no_newline hn h
    · exact absurd h (by decide)
    · exact digits_no_newline _ h
    · exact digits_no_newline _ h
  · refine ⟨' ' :: (n ++ ' ' :: (natText r ++ ' ' :: natText k)), ?_,
      ' ' :: (natText r ++ ' ' :: natText k), ?_, ' ' :: natText k, ?_, ?_⟩
    · have := readWord_text (ws := []) (w := "@matrix".toList)
        (rest := ' ' :: (n ++ ' ' :: (natText r ++ ' ' :: natText k)))
        (by intro c hc; cases hc) (by decide) (by decide) (.inr ⟨_, rfl⟩)
      rw [← this]
      congr 1
    · have := readWord_text (ws := [' ']) (w := n) (rest := ' ' :: (natText r ++ ' ' :: natText k))
        blank_space hn.2 hn.1 (.inr ⟨_, rfl⟩)
      rw [← this]
      congr 1
    · have := readSize_text (ws := [' ']) (rest := ' ' :: natText k) r blank_space (.inr ⟨_, rfl⟩) hr
      rw [← this]
      congr 1
    · have := readSize_text (ws := [' ']) (rest := []) k blank_space (.inl rfl) hk
      rw [← this]
      congr 1
      simp

theorem header_string {n : Str} {k : Nat} (hn : NameOk n) (hk : k < 2 ^ 64) :
    let l := "@string ".toList ++ n ++ ' ' :: natText k
    l ≠ [] ∧ '\n' ∉ l ∧ ∃ s1, readWord l = some ("@string".toList, s1) ∧
      ∃ s2, readWord s1 = some (n, s2) ∧ readSize s2 = some (k, []) := by
  intro l
  refine ⟨by simp [l], ?_, ?_⟩
  · intro h
    simp only [l, List.mem_append, List.mem_cons] at h
    rcases h with (h | h) | h | h
    · exact absurd h (by decide)
    · exact name_no_newline hn h
    · exact absurd h (by decide)
    · exact digits_no_newline _ h
  · refine ⟨' ' :: (n ++ ' ' :: natText k), ?_, ' ' :: natText k, ?_, ?_⟩
    · have := readWord_text (ws := []) (w := "@string".toList) (rest := ' ' :: (n ++ ' ' :: natText k))
        (by intro c hc; cases hc) (by decide) (by decide) (.inr ⟨_, rfl⟩)
      rw [← this]
      congr 1
    · have := readWord_text (ws := [' ']) (w := n) (rest := ' ' :: natText k)
        blank_space hn.2 hn.1 (.inr ⟨_, rfl⟩)
      rw [← this]
      congr 1
    · have := readSize_text (ws := [' ']) (rest := []) k blank_space (.inl rfl) hk
      rw [← this]
      congr 1
      simp

theorem loadLines_matrix {α : Type} (c : Codec α) {n : Str} {r k : Nat} (hn : NameOk n)
    (hr : r < 2 ^ 64) (hk : k < 2 ^ 64) (rest : List Str) (st : Store α) :
    loadLines c (("@matrix ".toList ++ n ++ ' ' :: (natText r ++ ' ' :: natText k)) :: rest) st =
      if r = 0 then .ub
      else match readRows c k r rest with
        | none => .error
        | some vals => loadLines c (rest.drop r) ⟨emplace st.mats n ⟨r, k, vals⟩, st.strs⟩ := by
  obtain ⟨h1, -, s1, h2, s2, h3, s3, h4, h5⟩ := header_matrix hn hr hk
  rw [loadLines, if_neg h1, h2]
  simp only [if_true, h3, h4, h5]
  rfl

theorem loadLines_string {α : Type} (c : Codec α) {n : Str} {k : Nat} (hn : NameOk n)
    (hk : k < 2 ^ 64) (rest : List Str) (st : Store α) :
    loadLines c (("@string ".toList ++ n ++ ' ' :: natText k) :: rest) st =
      loadLines c (rest.drop 1) ⟨st.mats, emplace st.strs n (readBytes (rest.headD []))⟩ := by
  obtain ⟨h1, -, s1, h2, s2, h3, h4⟩ := header_string hn hk
  rw [loadLines, if_neg h1, h2]
  simp only [if_neg (show "@string".toList ≠ "@matrix".toList by decide), if_true, h3, h4]

theorem loadLines_empty {α : Type} (c : Codec α) (rest : List Str) (st : Store α) :
    loadLines c ([] :: rest) st = loadLines c rest st := by
  rw [loadLines, if_pos rfl]

/-- The store after reading a variable. -/
def addVar {α : Type} (st : Store α) : Var α → Store α
  | .mat n ncols rows => ⟨emplace st.mats n ⟨rows.length, ncols, rows⟩, st.strs⟩
  | .attr d n x => ⟨emplace st.mats (d ++ '_' :: n) ⟨1, 1, [[x]]⟩, st.strs⟩
  | .str n v => ⟨st.mats, emplace st.strs n v⟩

theorem text_mat (a n x y z s : Str) :
    (a ++ n ++ ' ' :: (x ++ ' ' :: (y ++ '\n' :: (z ++ ['\n'])))) ++ s =
    (a ++ n ++ ' ' :: (x ++ ' ' :: y)) ++ '\n' :: (z ++ ([] ++ '\n' :: s)) := by
  simp

theorem text_attr (a n x y z s : Str) :
    (a ++ n ++ (' ' :: (x ++ ' ' :: (y ++ ['\n'])) ++ (z ++ ['\n', '\n']))) ++ s =
    (a ++ n ++ ' ' :: (x ++ ' ' :: y)) ++ '\n' :: (z ++ '\n' :: ([] ++ '\n' :: s)) := by
  simp

theorem write_attr {α : Type} (c : Codec α) (d n : Str) (x : α) (s : Str) :
    writeVar c (.attr d n x) ++ s =
        ("@matrix ".toList ++ (d ++ '_' :: n) ++ ' ' :: (natText 1 ++ ' ' :: natText 1)) ++ '\n' ::
        (c.fmt x ++ '\n' :: ([] ++ '\n' :: s)) := by
  have h1 : natText 1 = ['1'] := by decide +kernel
  have h2 : " 1 1\n".toList = ' ' :: (['1'] ++ ' ' :: (['1'] ++ ['\n'])) := by decide +kernel
  rw [h1, ← text_attr, ← h2]
  rfl

theorem text_str (a n x z s : Str) :
    (a ++ n ++ ' ' :: (x ++ '\n' :: (z ++ ['\n', '\n']))) ++ s =
    (a ++ n ++ ' ' :: x) ++ '\n' :: (z ++ '\n' :: ([] ++ '\n' :: s)) := by
  simp

theorem load_var {α : Type} (c : Codec α) (v : Var α) (hv : Storable c v) (s : Str) (st : Store α) :
    loadLines c (lines (writeVar c v ++ s)) st = loadLines c (lines s) (addVar st v) := by
  cases hv with
  | mat n ncols rows hn hne hlr hlc hrect hex =>
    have e : writeVar c (.mat n ncols rows) ++ s =
        ("@matrix ".toList ++ n ++ ' ' :: (natText rows.length ++ ' ' :: natText ncols)) ++ '\n' ::
        (rows.flatMap (fun r => rowText c r ++ ['\n']) ++ ([] ++ '\n' :: s)) :=
      text_mat _ _ _ _ _ _
    obtain ⟨-, hnl, -⟩ := header_matrix hn hlr hlc
    rw [e, lines_newline _ _ hnl, lines_rows c rows hex, lines_newline [] s (by simp),
      loadLines_matrix c hn hlr hlc, if_neg (by simpa using hne), readRows_text c ncols rows hrect hex]
    simp only
    have hd : List.drop rows.length (List.map (rowText c) rows ++ [] :: lines s) = [] :: lines s := by
      have := List.drop_left (l₁ := List.map (rowText c) rows) (l₂ := [] :: lines s)
      rw [List.length_map] at this
      exact this
    rw [hd, loadLines_empty]
    rfl
  | attr d n x hn hex =>
    have e : writeVar c (.attr d n x) ++ s =
        ("@matrix ".toList ++ (d ++ '_' :: n) ++ ' ' :: (natText 1 ++ ' ' :: natText 1)) ++ '\n' ::
        (c.fmt x ++ '\n' :: ([] ++ '\n' :: s)) :=
      write_attr c d n x s
    obtain ⟨-, hnl, -⟩ := header_matrix (r := 1) (k := 1) hn (by decide) (by decide)
    rw [e, lines_newline _ _ hnl, lines_newline _ _ hex.1, lines_newline [] s (by simp),
      loadLines_matrix c hn (by decide) (by decide), if_neg (by decide)]
    have hrow : readRows c 1 1 (c.fmt x :: [] :: lines s) = some [[x]] := by
      have := hex.2 [] [] (by intro c hc; cases hc) (.inl rfl)
      rw [List.nil_append, List.append_nil] at this
      simp only [readRows, readRow, List.headD_cons, this]
      rfl
    rw [hrow]
    simp only [List.drop_succ_cons, List.drop_zero]
    rw [loadLines_empty]
    rfl
  | str n v hn hlv =>
    have e : writeVar c (.str n v : Var α) ++ s =
        ("@string ".toList ++ n ++ ' ' :: natText v.length) ++ '\n' ::
        (v.flatMap (fun b => intOut (byteInt b) ++ [' ']) ++ '\n' :: ([] ++ '\n' :: s)) :=
      text_str _ _ _ _ _
    obtain ⟨-, hnl, -⟩ := header_string hn hlv
    have hb : '\n' ∉ v.flatMap (fun b => intOut (byteInt b) ++ [' ']) := by
      intro h
      simp only [List.mem_flatMap] at h
      obtain ⟨b, -, h⟩ := h
      rcases List.mem_append.1 h with h | h
      · exact intOut_no_newline _ h
      · simp only [List.mem_cons, List.not_mem_nil, or_false] at h
        exact absurd h (by decide)
    rw [e, lines_newline _ _ hnl, lines_newline _ _ hb, lines_newline [] s (by simp),
      loadLines_string c hn hlv]
    simp only [List.drop_succ_cons, List.drop_zero, List.headD_cons]
    rw [loadLines_empty]
    have := readBytes_text v [] (by intro c hc; cases hc)
    rw [List.nil_append] at this
    rw [this]
    rfl

theorem load_all {α : Type} (c : Codec α) (vs : List (Var α)) : ∀ (st : Store α),
    (∀ v ∈ vs, Storable c v) →
    loadLines c (lines (writeAll c vs)) st = .ok (vs.foldl addVar st) := by
  induction vs with
  | nil => intro st _; simp [writeAll, lines, linesFrom, loadLines]
  | cons v vs ih =>
    intro st h
    rw [writeAll, List.flatMap_cons, load_var c v (h v (by simp))]
    exact ih _ (fun w hw => h w (by simp [hw]))

theorem lookup_fold {α : Type} (n : Str) (vs : List (Var α)) : ∀ (st : Store α),
    lookup (vs.foldl addVar st).mats n = (lookup st.mats n).or (vs.findSome? (matrixOf n)) ∧
    lookup (vs.foldl addVar st).strs n = (lookup st.strs n).or (vs.findSome? (stringOf n)) := by
  induction vs with
  | nil => intro st; simp
  | cons v vs ih =>
    intro st
    obtain ⟨h1, h2⟩ := ih (addVar st v)
    rw [List.foldl_cons, h1, h2]
    cases v with
    | mat m ncols rows =>
      simp only [addVar, lookup_emplace, List.findSome?_cons, matrixOf, stringOf]
      by_cases e : m = n
      · simp [e, Option.or_assoc]
      · simp [e]
    | attr d m x =>
      simp only [addVar, lookup_emplace, List.findSome?_cons, matrixOf, stringOf]
      by_cases e : d ++ '_' :: m = n
      · simp [e, Option.or_assoc]
      · simp [e]
    | str m v =>
      simp only [addVar, lookup_emplace, List.findSome?_cons, matrixOf, stringOf]
      by_cases e : m = n
      · simp [e, Option.or_assoc]
      · simp [e]

end Softlib.SFile
