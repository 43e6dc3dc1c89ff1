/-
Properties C22, C23 and C26: SDT files.
-/
import Verif.SFile.SdtLemmas
import Mathlib.Data.Fintype.Pigeonhole
import Mathlib.Data.Fintype.BigOperators

namespace Softlib

open Softlib.Config Softlib.SFile

/-- C22 and C23, general form: after writing any sequence of storable variables, the file
opens, and a name gives the first matrix and the first string written under it, nothing
otherwise. -/
theorem C22_first_definition_wins {α : Type} (c : Codec α) (vs : List (Var α))
    (h : ∀ v ∈ vs, Storable c v) :
    ∃ st, openRead c (writeAll c vs) = .ok st ∧
      ∀ n, getDoubles st n = vs.findSome? (matrixOf n) ∧
        getString st n = vs.findSome? (stringOf n) := by
  refine ⟨_, load_all c vs ⟨[], []⟩ h, fun n => ?_⟩
  obtain ⟨h1, h2⟩ := lookup_fold n vs ⟨[], []⟩
  exact ⟨h1, h2⟩

/-- C22: a matrix with at least one row, whose entries are reproduced by the stream format,
comes back with its dimensions and entries whatever else is in the file, provided no earlier
matrix or attribute has its name.
Missing: matrices without rows (undefined behaviour), entries that the default output
precision does not reproduce, and repeated names. -/
theorem C22_round_trip_partial {α : Type} (c : Codec α) (pre post : List (Var α)) (n : Str)
    (ncols : Nat) (rows : List (List α))
    (h : ∀ v ∈ pre ++ .mat n ncols rows :: post, Storable c v)
    (hfirst : ∀ v ∈ pre, matrixOf n v = none) :
    ∃ st, openRead c (writeAll c (pre ++ .mat n ncols rows :: post)) = .ok st ∧
      getDoubles st n = some ⟨rows.length, ncols, rows⟩ ∧ hasVariable st n = true := by
  obtain ⟨st, hst, hl⟩ := C22_first_definition_wins c _ h
  have hd : getDoubles st n = some ⟨rows.length, ncols, rows⟩ := by
    rw [(hl n).1, List.findSome?_append, List.findSome?_eq_none_iff.2 hfirst]
    simp [matrixOf]
  refine ⟨st, hst, hd, ?_⟩
  have hd' : lookup st.mats n = some ⟨rows.length, ncols, rows⟩ := hd
  simp [hasVariable, hd']

/-- C22, scalar attributes: the same holds for attributes under the combined name. -/
theorem C22_attribute_round_trip_partial {α : Type} (c : Codec α) (pre post : List (Var α)) (d n : Str) (x : α)
    (h : ∀ v ∈ pre ++ .attr d n x :: post, Storable c v)
    (hfirst : ∀ v ∈ pre, matrixOf (d ++ '_' :: n) v = none) :
    ∃ st, openRead c (writeAll c (pre ++ .attr d n x :: post)) = .ok st ∧
      getAttributeScalar st d n = some x := by
  obtain ⟨st, hst, hl⟩ := C22_first_definition_wins c _ h
  have hd : lookup st.mats (attrName d n) = some ⟨1, 1, [[x]]⟩ := by
    have := (hl (attrName d n)).1
    unfold getDoubles at this
    rw [this, List.findSome?_append, attrName, List.findSome?_eq_none_iff.2 hfirst]
    simp [matrixOf]
  refine ⟨st, hst, ?_⟩
  simp [getAttributeScalar, hd]

/-- C22 as stated is refuted, first reason: a matrix without rows makes the file unreadable
(a write outside of an empty array). -/
theorem C22_refuted_no_rows {α : Type} (c : Codec α) (n : Str) (ncols : Nat) (hn : NameOk n)
    (hk : ncols < 2 ^ 64) : openRead c (writeAll c [.mat n ncols []]) = .ub := by
  have e : writeAll c [.mat n ncols ([] : List (List α))] =
      ("@matrix ".toList ++ n ++ ' ' :: (natText 0 ++ ' ' :: natText ncols)) ++ '\n' ::
        (([] : Str) ++ ([] ++ '\n' :: [])) := by
    rw [← text_mat]
    simp only [writeAll, List.flatMap_cons, List.flatMap_nil]
    rfl
  obtain ⟨-, hnl, -⟩ := header_matrix (r := 0) hn (by decide) hk
  rw [openRead, e, lines_newline _ _ hnl, loadLines_matrix c hn (by decide) hk, if_pos rfl]

/-- C22 as stated is refuted, second reason: if the output format produces at most 13
characters out of 15 (as the default precision does for finite numbers: digits, sign, point
and exponent), and there are more than 2^52 numbers (there are about 2^64), then for every
way of reading numbers some 1x1 matrix does not come back. -/
theorem C22_refuted_precision {α : Type} [Fintype α] (c : Codec α) (alphabet : List Char)
    (ha : alphabet.length ≤ 15)
    (hf : ∀ x, (c.fmt x).length ≤ 13 ∧ ∀ ch ∈ c.fmt x, ch ∈ alphabet)
    (hcard : 2 ^ 52 < Fintype.card α) (n : Str) :
    ∃ x, ∀ st, openRead c (writeAll c [.mat n 1 [[x]]]) = .ok st →
      getDoubles st n ≠ some ⟨1, 1, [[x]]⟩ := by
  let code : α → (Fin 13 → Fin 16) := fun x i =>
    match (c.fmt x)[i.val]? with
    | none => 15
    | some ch => ⟨min 14 (alphabet.idxOf ch), by omega⟩
  have hlt : Fintype.card (Fin 13 → Fin 16) < Fintype.card α := by
    rw [Fintype.card_fun, Fintype.card_fin, Fintype.card_fin]
    have : (16 : Nat) ^ 13 = 2 ^ 52 := by decide
    rw [this]
    exact hcard
  obtain ⟨x, y, hne, hxy⟩ := Fintype.exists_ne_map_eq_of_card_lt code hlt
  have hfmt : c.fmt x = c.fmt y := by
    apply List.ext_getElem?
    intro i
    by_cases hi : i < 13
    · have := congrFun hxy ⟨i, hi⟩
      simp only [code] at this
      cases hx : (c.fmt x)[i]? with
      | none =>
        cases hy : (c.fmt y)[i]? with
        | none => rfl
        | some b =>
          rw [hx, hy] at this
          simp only [Fin.ext_iff] at this
          have : (15 : Fin 16).val = 15 := rfl
          omega
      | some a =>
        cases hy : (c.fmt y)[i]? with
        | none =>
          rw [hx, hy] at this
          simp only [Fin.ext_iff] at this
          have : (15 : Fin 16).val = 15 := rfl
          omega
        | some b =>
          rw [hx, hy] at this
          simp only [Fin.ext_iff] at this
          have hma : a ∈ alphabet := (hf x).2 a (List.mem_of_getElem? hx)
          have hmb : b ∈ alphabet := (hf y).2 b (List.mem_of_getElem? hy)
          have h1 := List.idxOf_lt_length_iff.2 hma
          have h2 := List.idxOf_lt_length_iff.2 hmb
          have h3 : alphabet.idxOf a = alphabet.idxOf b := by omega
          have e1 := List.getElem_idxOf h1
          have e2 := List.getElem_idxOf h2
          rw [← e1, ← e2]
          simp only [h3]
    · rw [List.getElem?_eq_none (by have := (hf x).1; omega),
        List.getElem?_eq_none (by have := (hf y).1; omega)]
  have htext : writeAll c [.mat n 1 [[x]]] = writeAll c [.mat n 1 [[y]]] := by
    have hrow : rowText c [x] = rowText c [y] := by
      simp only [rowText, List.flatMap_cons, List.flatMap_nil, hfmt]
    unfold writeAll
    rw [List.flatMap_cons, List.flatMap_cons]
    unfold writeVar
    generalize "@matrix ".toList = hd
    simp only [List.flatMap_cons, hrow, List.length_cons]
  by_contra hcon
  simp only [not_exists, not_forall, not_not] at hcon
  obtain ⟨s1, h1, g1⟩ := hcon x
  obtain ⟨s2, h2, g2⟩ := hcon y
  rw [htext, h2] at h1
  simp only [Loaded.ok.injEq] at h1
  rw [← h1, g2] at g1
  simp only [Option.some.injEq, Matrix.mk.injEq, List.cons.injEq, and_true, true_and] at g1
  exact hne g1.symm

/-- Numbers that are integers, written and read in full. -/
def integerCodec : Codec Int where
  fmt := intOut
  read := fun s =>
    match intPrefix s with
    | none => none
    | some (neg, ds, e) => some (signed neg ds, s.drop e)

/-- C22: integers are reproduced, so the hypotheses of the round trip can be met. -/
theorem C22_integers_exact (z : Int) : Exact integerCodec z := by
  refine ⟨intOut_no_newline z, ?_⟩
  intro ws rest hws hr
  obtain ⟨h1, h2, h3⟩ := natText_digits z.natAbs
  show (match intPrefix (ws ++ intOut z ++ rest) with
    | none => none
    | some (neg, ds, e) => some (signed neg ds, (ws ++ intOut z ++ rest).drop e)) = _
  by_cases hneg : z < 0
  · have hw : Written (ws ++ intOut z) true (natText z.natAbs) :=
      ⟨ws, ['-'], by simp [intOut, hneg], hws, .inr (.inr rfl), rfl, h1, h2⟩
    have hv : signed true (natText z.natAbs) = z := by
      simp only [signed, h3, if_true]; omega
    simp only [intPrefix_of_written hw (space_not_digit hr), hv]
    rw [List.drop_left]
  · have hw : Written (ws ++ intOut z) false (natText z.natAbs) :=
      ⟨ws, [], by simp [intOut, hneg], hws, .inl rfl, rfl, h1, h2⟩
    have hv : signed false (natText z.natAbs) = z := by
      simp only [signed, h3]
      simp only [Bool.false_eq_true, if_false]; omega
    simp only [intPrefix_of_written hw (space_not_digit hr), hv]
    rw [List.drop_left]

/-- C23: every byte string comes back unchanged, whatever other variables are in the file, if
it is the first string of its name. -/
theorem C23_round_trip {α : Type} (c : Codec α) (pre post : List (Var α)) (n : Str) (v : List UInt8)
    (h : ∀ w ∈ pre ++ .str n v :: post, Storable c w)
    (hfirst : ∀ w ∈ pre, stringOf n w = none) :
    ∃ st, openRead c (writeAll c (pre ++ .str n v :: post)) = .ok st ∧
      getString st n = some v ∧ hasVariable st n = true := by
  obtain ⟨st, hst, hl⟩ := C22_first_definition_wins c _ h
  have hd : getString st n = some v := by
    rw [(hl n).2, List.findSome?_append, List.findSome?_eq_none_iff.2 hfirst]
    simp [stringOf]
  refine ⟨st, hst, hd, ?_⟩
  have hd' : lookup st.strs n = some v := hd
  simp [hasVariable, hd']

/-- C23: a later string of the same name does not replace the first. -/
theorem C23_second_write_ignored {α : Type} (c : Codec α) (n : Str) (v w : List UInt8) (hn : NameOk n)
    (hv : v.length < 2 ^ 64) (hw : w.length < 2 ^ 64) :
    ∃ st, openRead c (writeAll c [.str n v, .str n w]) = .ok st ∧ getString st n = some v := by
  obtain ⟨st, h1, h2, -⟩ := C23_round_trip c [] [.str n w] n v (by
    intro x hx
    simp only [List.nil_append, List.mem_cons, List.not_mem_nil, or_false] at hx
    rcases hx with rfl | rfl
    · exact .str n v hn hv
    · exact .str n w hn hw) (by intro x hx; cases hx)
  exact ⟨st, h1, h2⟩

/-- A file with a matrix, an attribute and a string containing a zero byte and a byte above 127. -/
example : ∀ v ∈ [.mat "a".toList 2 [[1, -2], [3, 40]], .attr "a".toList "b".toList 7,
    .str "s".toList [0, 200, 10, 32]], Storable integerCodec v := by
  intro v hv
  simp only [List.mem_cons, List.not_mem_nil, or_false] at hv
  rcases hv with rfl | rfl | rfl
  · exact .mat _ _ _ ⟨by decide, by decide⟩ (by decide) (by decide) (by decide) (by decide)
      (fun _ _ x _ => C22_integers_exact x)
  · exact .attr _ _ _ ⟨by decide, by decide⟩ (C22_integers_exact _)
  · exact .str _ _ ⟨by decide, by decide⟩ (by decide)

/-! ### C26: scalars -/

/-- `__GetSingle`, SFile.cpp 299-312, for a reader `f` of matrices; `none` is an exception. -/
def getSingle {α : Type} (f : Str → Option (Matrix α)) (name : Str) : Option α :=
  match f name with
  | none => none
  | some m => if m.nrows ≠ 1 ∨ m.ncols ≠ 1 then none else (m.vals[0]?).bind (fun r => r[0]?)

/-- A matrix holds what its dimensions say. -/
def Rect {α : Type} (m : Matrix α) : Prop := m.vals.length = m.nrows ∧ ∀ r ∈ m.vals, r.length = m.ncols

/-- C26: for a reader of proper matrices, a scalar is read exactly when the variable exists
and is 1x1, and is then its element; in all other cases an exception is thrown. -/
theorem C26_scalar_iff_one_by_one {α : Type} (f : Str → Option (Matrix α)) (name : Str)
    (hf : ∀ m, f name = some m → Rect m) :
    (∀ x, getSingle f name = some x ↔ f name = some ⟨1, 1, [[x]]⟩) ∧
    (getSingle f name = none ↔ ∀ m, f name = some m → ¬ (m.nrows = 1 ∧ m.ncols = 1)) := by
  cases hm : f name with
  | none => simp [getSingle, hm]
  | some m =>
    obtain ⟨h1, h2⟩ := hf m hm
    obtain ⟨r, k, vals⟩ := m
    simp only at h1 h2
    by_cases hd : r = 1 ∧ k = 1
    · obtain ⟨rfl, rfl⟩ := hd
      match vals, h1, h2 with
      | [[a]], _, _ => simp [getSingle, hm]
      | [[]], _, h2 => exact absurd (h2 [] (by simp)) (by simp)
      | [_ :: _ :: _], _, h2 => exact absurd (h2 _ List.mem_cons_self) (by simp)
    · have hd' : r ≠ 1 ∨ k ≠ 1 := by
        by_cases hr : r = 1
        · exact .inr (fun e => hd ⟨hr, e⟩)
        · exact .inl hr
      simp only [getSingle, hm]
      rw [if_pos hd']
      constructor
      · intro x
        simp only [reduceCtorEq, Option.some.injEq, Matrix.mk.injEq, false_iff]
        rintro ⟨e1, e2, -⟩
        exact hd ⟨e1, e2⟩
      · simp only [Option.some.injEq, true_iff]
        rintro m rfl
        exact hd

theorem readRow_length {α : Type} (c : Codec α) (n : Nat) : ∀ (s : Str) (l : List α),
    readRow c n s = some l → l.length = n := by
  induction n with
  | zero => intro s l h; simp only [readRow, Option.some.injEq] at h; subst h; rfl
  | succ n ih =>
    intro s l h
    simp only [readRow] at h
    split at h
    · cases h
    · obtain ⟨t, ht, rfl⟩ := Option.map_eq_some_iff.1 h
      rw [List.length_cons, ih _ _ ht]

theorem readRows_rect {α : Type} (c : Codec α) (k n : Nat) : ∀ (ls : List Str) (v : List (List α)),
    readRows c k n ls = some v → v.length = n ∧ ∀ r ∈ v, r.length = k := by
  induction n with
  | zero =>
    intro ls v h
    simp only [readRows, Option.some.injEq] at h
    subst h
    exact ⟨rfl, by intro r hr; cases hr⟩
  | succ n ih =>
    intro ls v h
    simp only [readRows] at h
    split at h
    · cases h
    · rename_i row hrow
      obtain ⟨t, ht, rfl⟩ := Option.map_eq_some_iff.1 h
      obtain ⟨h1, h2⟩ := ih _ _ ht
      refine ⟨by rw [List.length_cons, h1], ?_⟩
      intro r hr
      rcases List.mem_cons.1 hr with rfl | hr
      · exact readRow_length c k _ _ hrow
      · exact h2 r hr

theorem rect_emplace {α : Type} {l : List (Str × Matrix α)} {n : Str} {m : Matrix α}
    (hl : ∀ e ∈ l, Rect e.2) (hm : Rect m) : ∀ e ∈ emplace l n m, Rect e.2 := by
  intro e he
  unfold emplace at he
  split at he
  · exact hl e he
  · rcases List.mem_append.1 he with he | he
    · exact hl e he
    · simp only [List.mem_cons, List.not_mem_nil, or_false] at he
      subst he
      exact hm

theorem loadLines_rect {α : Type} (c : Codec α) (ls : List Str) (st : Store α) :
    ∀ st', (∀ e ∈ st.mats, Rect e.2) → loadLines c ls st = .ok st' → ∀ e ∈ st'.mats, Rect e.2 := by
  fun_induction loadLines c ls st <;> intro st' h e
  all_goals first
    | (rename_i ih; exact ih st' h e)
    | (rename_i hv ih
       have hr := readRows_rect c _ _ _ _ hv
       exact ih st' (rect_emplace h ⟨hr.1, hr.2⟩) e)
    | (rename_i hv _ ih
       have hr := readRows_rect c _ _ _ _ hv
       exact ih st' (rect_emplace h ⟨hr.1, hr.2⟩) e)
    | (cases e; exact h)
    | cases e

/-- C26 for SDT files with any contents at all: if the file opens, a scalar read succeeds
exactly for stored 1x1 matrices and gives their element. -/
theorem C26_sdt {α : Type} (c : Codec α) (text : Str) (st : Store α) (h : openRead c text = .ok st)
    (name : Str) :
    (∀ x, getSingle (getDoubles st) name = some x ↔ getDoubles st name = some ⟨1, 1, [[x]]⟩) ∧
    (getSingle (getDoubles st) name = none ↔
      ∀ m, getDoubles st name = some m → ¬ (m.nrows = 1 ∧ m.ncols = 1)) := by
  apply C26_scalar_iff_one_by_one
  intro m hm
  have := loadLines_rect c (lines text) ⟨[], []⟩ st (by intro e he; cases he) h
  unfold getDoubles lookup at hm
  obtain ⟨e, he, rfl⟩ := Option.map_eq_some_iff.1 hm
  exact this e (List.mem_of_find?_eq_some he)

/-- A 1x1 matrix is a scalar, a 1x2 matrix is not. -/
example : getSingle (fun _ => some ⟨1, 1, [[5]]⟩) [] = some 5 ∧
    getSingle (fun _ => some ⟨1, 2, [[5, 6]]⟩) [] = none := by decide

/-- C26 for attributes: a scalar attribute is the single element of the 1 × 1 matrix of the
combined name, and everything else is rejected. -/
theorem C26_sdt_attribute {α : Type} (c : Codec α) (text : Str) (st : Store α) (h : openRead c text = .ok st)
    (dset name : Str) :
    (∀ x, getAttributeScalar st dset name = some x ↔
      getDoubles st (dset ++ '_' :: name) = some ⟨1, 1, [[x]]⟩) ∧
    (getAttributeScalar st dset name = none ↔
      ∀ m, getDoubles st (dset ++ '_' :: name) = some m → ¬ (m.nrows = 1 ∧ m.ncols = 1)) := by
  have e : getAttributeScalar st dset name = getSingle (getDoubles st) (dset ++ '_' :: name) := rfl
  rw [e]
  exact C26_sdt c text st h _

/-! ### the end of the file -/

theorem lines_snoc_newline (text : Str) : ∀ acc : Str,
    linesFrom acc (text ++ ['\n']) = linesFrom acc text ∨
    linesFrom acc (text ++ ['\n']) = linesFrom acc text ++ [[]] := by
  induction text with
  | nil =>
    intro acc
    by_cases h : acc = []
    · subst h; right; simp [linesFrom]
    · left; simp [linesFrom, h]
  | cons a r ih =>
    intro acc
    by_cases h : a = '\n'
    · rcases ih [] with e | e
      · left; simp [linesFrom, h, e]
      · right; simp [linesFrom, h, e]
    · rcases ih (a :: acc) with e | e
      · left; simp [linesFrom, h, e]
      · right; simp [linesFrom, h, e]

theorem headD_snoc_empty (l : List Str) : (l ++ [[]]).headD [] = l.headD [] := by cases l <;> rfl

theorem readRows_snoc {α : Type} (c : Codec α) (k n : Nat) : ∀ ls : List Str,
    readRows c k n (ls ++ [[]]) = readRows c k n ls := by
  induction n with
  | zero => intro ls; rfl
  | succ n ih =>
    intro ls
    simp only [readRows, headD_snoc_empty]
    cases ls with
    | nil => rfl
    | cons a l => rw [List.cons_append, List.tail_cons, List.tail_cons, ih]

theorem loadLines_snoc {α : Type} (c : Codec α) : ∀ (k : Nat) (ls : List Str) (st : Store α), ls.length ≤ k →
    loadLines c (ls ++ [[]]) st = loadLines c ls st := by
  intro k
  induction k with
  | zero =>
    intro ls st hk
    have : ls = [] := List.length_eq_zero_iff.1 (by omega)
    subst this
    rw [List.nil_append, loadLines_empty]
  | succ k ih =>
    intro ls st hk
    cases ls with
    | nil => rw [List.nil_append, loadLines_empty]
    | cons l rest =>
      simp only [List.length_cons] at hk
      have hdrop : ∀ (n : Nat) (st : Store α), loadLines c ((rest ++ [[]]).drop n) st =
          loadLines c (rest.drop n) st := by
        intro n st
        by_cases hn : n ≤ rest.length
        · rw [List.drop_append_of_le_length hn]
          exact ih _ _ (by rw [List.length_drop]; omega)
        · rw [List.drop_eq_nil_of_le (by simp; omega), List.drop_eq_nil_of_le (by omega)]
      rw [List.cons_append, loadLines, loadLines]
      simp only [readRows_snoc, headD_snoc_empty, hdrop, ih rest _ (by omega)]

/-- C22: it does not matter whether the last line of a file ends with a line break. -/
theorem C22_final_newline_optional {α : Type} (c : Codec α) (text : Str) :
    openRead c (text ++ ['\n']) = openRead c text := by
  unfold openRead lines
  rcases lines_snoc_newline text [] with e | e
  · rw [e]
  · rw [e, loadLines_snoc c _ _ _ (Nat.le_refl _)]

end Softlib
