/-
Files of the SDT format whose numbers are read as other numbers.
-/
import Verif.SFile.SdtProps

namespace Softlib
open Softlib.Config Softlib.SFile

/-- The text of `x` is read by `c` as `y`, after blanks and up to a blank or the end. -/
def TextReadsAs {α β : Type} (fmt : α → Str) (c : Codec β) (x : α) (y : β) : Prop :=
  ∀ ws rest : Str, (∀ ch ∈ ws, isSpaceC ch = true) → (rest = [] ∨ ∃ r, rest = ' ' :: r) →
    c.read (ws ++ fmt x ++ rest) = some (y, rest)

/-- A variable with its numbers changed. -/
def mapVar {α β : Type} (g : α → β) : Var α → Var β
  | .mat n k rows => .mat n k (rows.map (List.map g))
  | .attr d n x => .attr d n (g x)
  | .str n v => .str n v

/-- A variable that the format can hold, whose numbers have the property `P`. -/
inductive Shaped {α : Type} (P : α → Prop) : Var α → Prop where
  | mat (n : Str) (ncols : Nat) (rows : List (List α)) : NameOk n → rows ≠ [] →
      rows.length < 2 ^ 64 → ncols < 2 ^ 64 → (∀ r ∈ rows, r.length = ncols) →
      (∀ r ∈ rows, ∀ x ∈ r, P x) → Shaped P (.mat n ncols rows)
  | attr (d n : Str) (x : α) : NameOk (d ++ '_' :: n) → P x → Shaped P (.attr d n x)
  | str (n : Str) (v : List UInt8) : NameOk n → v.length < 2 ^ 64 → Shaped P (.str n v)

theorem shaped_of_storable {α : Type} {c : Codec α} {P : α → Prop} (h : ∀ x, Exact c x → P x) {v : Var α} (hv : Storable c v) :
    Shaped P v := by
  cases hv with
  | mat n k rows h1 h2 h3 h4 h5 h6 => exact .mat n k rows h1 h2 h3 h4 h5 (fun r hr x hx => h x (h6 r hr x hx))
  | attr d n x h1 h2 => exact .attr d n x h1 (h x h2)
  | str n v h1 h2 => exact .str n v h1 h2

/-- The text of `x` is on one line and is read as `y`. -/
def LineReadsAs {α β : Type} (fmt : α → Str) (c : Codec β) (x : α) (y : β) : Prop := '\n' ∉ fmt x ∧ TextReadsAs fmt c x y

theorem rowText_line {α : Type} (c : Codec α) (row : List α) (h : ∀ x ∈ row, '\n' ∉ c.fmt x) : '\n' ∉ rowText c row := by
  intro hm
  simp only [rowText, List.mem_flatMap] at hm
  obtain ⟨x, hx, hm⟩ := hm
  rcases List.mem_append.1 hm with hm | hm
  · exact h x hx hm
  · simp only [List.mem_cons, List.not_mem_nil, or_false] at hm
    exact absurd hm (by decide)

theorem lines_rows_line {α : Type} (c : Codec α) (rows : List (List α)) (h : ∀ r ∈ rows, ∀ x ∈ r, '\n' ∉ c.fmt x) (s : Str) :
    lines (rows.flatMap (fun r => rowText c r ++ ['\n']) ++ s) = rows.map (rowText c) ++ lines s := by
  induction rows with
  | nil => rfl
  | cons r rows ih =>
    rw [List.flatMap_cons, show rowText c r ++ ['\n'] ++ rows.flatMap (fun r => rowText c r ++ ['\n']) ++ s =
      rowText c r ++ '\n' :: (rows.flatMap (fun r => rowText c r ++ ['\n']) ++ s) from by simp]
    rw [lines_newline _ _ (rowText_line c r (h r (by simp))), ih (fun r hr => h r (by simp [hr]))]
    rfl

theorem readRow_as {α β : Type} (c : Codec α) (c' : Codec β) (g : α → β) (row : List α)
    (h : ∀ x ∈ row, TextReadsAs c.fmt c' x (g x)) :
    ∀ ws : Str, (∀ ch ∈ ws, isSpaceC ch = true) → readRow c' row.length (ws ++ rowText c row) = some (row.map g) := by
  induction row with
  | nil => intro ws _; rfl
  | cons x row ih =>
    intro ws hws
    have hr := h x (by simp) ws (' ' :: rowText c row) hws (.inr ⟨_, rfl⟩)
    have e : ws ++ rowText c (x :: row) = ws ++ c.fmt x ++ ' ' :: rowText c row := by
      simp [rowText]
    rw [e, List.length_cons, readRow, hr]
    simp only
    rw [show ' ' :: rowText c row = [' '] ++ rowText c row from rfl, ih (fun y hy => h y (by simp [hy])) [' '] blank_space]
    rfl

theorem readRows_as {α β : Type} (c : Codec α) (c' : Codec β) (g : α → β) (ncols : Nat) (rows : List (List α))
    (h : ∀ r ∈ rows, ∀ x ∈ r, TextReadsAs c.fmt c' x (g x)) (hlen : ∀ r ∈ rows, r.length = ncols) (rest : List Str) :
    readRows c' ncols rows.length (rows.map (rowText c) ++ rest) = some (rows.map (List.map g)) := by
  induction rows with
  | nil => rfl
  | cons r rows ih =>
    rw [List.length_cons, readRows]
    simp only [List.map_cons, List.cons_append, List.headD_cons, List.tail_cons]
    have := readRow_as c c' g r (h r (by simp)) [] (by intro c hc; cases hc)
    rw [List.nil_append, hlen r (by simp)] at this
    rw [this]
    simp only
    rw [ih (fun r hr => h r (by simp [hr])) (fun r hr => hlen r (by simp [hr]))]
    rfl

theorem load_var_as {α β : Type} (c : Codec α) (c' : Codec β) (g : α → β) (v : Var α)
    (hv : Shaped (fun x => LineReadsAs c.fmt c' x (g x)) v) (s : Str) (st : Store β) :
    loadLines c' (lines (writeVar c v ++ s)) st = loadLines c' (lines s) (addVar st (mapVar g v)) := by
  cases hv with
  | mat n ncols rows hn hne hlr hlc hrect hex =>
    have e : writeVar c (.mat n ncols rows) ++ s =
        ("@matrix ".toList ++ n ++ ' ' :: (natText rows.length ++ ' ' :: natText ncols)) ++ '\n' ::
        (rows.flatMap (fun r => rowText c r ++ ['\n']) ++ ([] ++ '\n' :: s)) :=
      text_mat _ _ _ _ _ _
    obtain ⟨-, hnl, -⟩ := header_matrix hn hlr hlc
    rw [e, lines_newline _ _ hnl, lines_rows_line c rows (fun r hr x hx => (hex r hr x hx).1), lines_newline [] s (by simp),
      loadLines_matrix c' hn hlr hlc, if_neg (by simpa using hne), readRows_as c c' g ncols rows (fun r hr x hx => (hex r hr x hx).2) hrect]
    simp only
    have hd : List.drop rows.length (List.map (rowText c) rows ++ [] :: lines s) = [] :: lines s := by
      have := List.drop_left (l₁ := List.map (rowText c) rows) (l₂ := [] :: lines s)
      rw [List.length_map] at this
      exact this
    rw [hd, loadLines_empty]
    simp [mapVar, addVar]
  | attr d n x hn hex =>
    have e := write_attr c d n x s
    obtain ⟨-, hnl, -⟩ := header_matrix (r := 1) (k := 1) hn (by decide) (by decide)
    rw [e, lines_newline _ _ hnl, lines_newline _ _ hex.1, lines_newline [] s (by simp),
      loadLines_matrix c' hn (by decide) (by decide), if_neg (by decide)]
    have hrow : readRows c' 1 1 (c.fmt x :: [] :: lines s) = some [[g x]] := by
      have := hex.2 [] [] (by intro c hc; cases hc) (.inl rfl)
      rw [List.nil_append, List.append_nil] at this
      simp only [readRows, readRow, List.headD_cons, this]
      rfl
    rw [hrow]
    simp only [List.drop_succ_cons, List.drop_zero]
    rw [loadLines_empty]
    rfl
  | str n v hn hlv =>
    have e : writeVar c (.str n v : Var α) ++ s =
        ("@string ".toList ++ n ++ ' ' :: natText v.length) ++ '\n' ::
        (v.flatMap (fun b => intOut (byteInt b) ++ [' ']) ++ '\n' :: ([] ++ '\n' :: s)) :=
      text_str _ _ _ _ _
    obtain ⟨-, hnl, -⟩ := header_string hn hlv
    have hb : '\n' ∉ v.flatMap (fun b => intOut (byteInt b) ++ [' ']) := by
      intro h
      simp only [List.mem_flatMap] at h
      obtain ⟨b, -, h⟩ := h
      rcases List.mem_append.1 h with h | h
      · exact intOut_no_newline _ h
      · simp only [List.mem_cons, List.not_mem_nil, or_false] at h
        exact absurd h (by decide)
    rw [e, lines_newline _ _ hnl, lines_newline _ _ hb, lines_newline [] s (by simp),
      loadLines_string c' hn hlv]
    simp only [List.drop_succ_cons, List.drop_zero, List.headD_cons]
    rw [loadLines_empty]
    have := readBytes_text v [] (by intro c hc; cases hc)
    rw [List.nil_append] at this
    rw [this]
    rfl

theorem load_all_in {α β : Type} (c : Codec α) (c' : Codec β) (g : α → β) (vs : List (Var α)) :
    ∀ (st : Store β), (∀ v ∈ vs, Shaped (fun x => LineReadsAs c.fmt c' x (g x)) v) →
    loadLines c' (lines (writeAll c vs)) st = .ok ((vs.map (mapVar g)).foldl addVar st) := by
  induction vs with
  | nil => intro st _; simp [writeAll, lines, linesFrom, loadLines]
  | cons v vs ih =>
    intro st hs
    rw [writeAll, List.flatMap_cons, load_var_as c c' g v (hs v (by simp))]
    exact ih _ (fun w hw => hs w (by simp [hw]))

theorem findSome_mapVar {α β : Type} (g : α → β) (n : Str) (vs : List (Var α)) :
    (vs.map (mapVar g)).findSome? (matrixOf n) =
      (vs.findSome? (matrixOf n)).map (fun m => ⟨m.nrows, m.ncols, m.vals.map (List.map g)⟩) := by
  induction vs with
  | nil => rfl
  | cons v vs ih =>
    rw [List.map_cons, List.findSome?_cons, List.findSome?_cons]
    cases v with
    | mat m k rows =>
      by_cases e : m = n
      · simp [mapVar, matrixOf, e]
      · simp only [mapVar, matrixOf, if_neg e]; exact ih
    | attr d m x =>
      by_cases e : d ++ '_' :: m = n
      · simp [mapVar, matrixOf, e]
      · simp only [mapVar, matrixOf, if_neg e]; exact ih
    | str m v => simp only [mapVar, matrixOf]; exact ih

end Softlib
