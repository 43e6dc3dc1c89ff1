/-
From the text of a script to the values a program gets (C114): the composition of the lexer, the interpreter, merging and the
conversions of settings.  Models: LexModel, InterpModel, BlockModel, MergeModel, SettingModel.
-/
import Verif.Config.BuiltProps
import Verif.Config.SettingProps

namespace Softlib

open Softlib.Config Softlib.Config.Block

/-- The getters give the values that the texts denote, and the checks agree. -/
structure ReadsAs (erange : Str → Bool) (vs : List Str) : Prop where
  int32 : ∀ i v z, vs[i]? = some v → Denotes v z → -2 ^ 31 ≤ z → z < 2 ^ 31 → isInteger32 vs i = .val true ∧ getInteger32 vs i = .val z
  int64 : ∀ i v z, vs[i]? = some v → Denotes v z → -2 ^ 63 ≤ z → z < 2 ^ 63 → isInteger64 vs i = .val true ∧ getInteger64 vs i = .val z
  uint32 : ∀ i v (k : Nat), vs[i]? = some v → Denotes v k → k < 2 ^ 32 → isUnsigned32 vs i = .val true ∧ getUnsigned32 vs i = .val k
  uint64 : ∀ i v (k : Nat), vs[i]? = some v → Denotes v k → k < 2 ^ 64 → isUnsigned64 vs i = .val true ∧ getUnsigned64 vs i = .val k
  yes : ∀ i v, vs[i]? = some v → Affirmative v → isBoolAt vs i = .val true ∧ getBool vs i = .val true
  no : ∀ i v, vs[i]? = some v → Negative v → isBoolAt vs i = .val true ∧ getBool vs i = .val false
  scalar : ∀ i v, vs[i]? = some v → NumText v → erange v = false → isScalarAt erange vs i = .val true ∧ getScalar erange vs i = .val v
  vector : (∀ v ∈ vs, NumText v ∧ erange v = false) → isNumericVector erange vs = .val true ∧ getNumericVector erange vs = .val vs

theorem readsAs (erange : Str → Bool) (vs : List Str) : ReadsAs erange vs := by
  refine ⟨?_, ?_, ?_, ?_, ?_, ?_, ?_, ?_⟩
  · intro i v z h hd h1 h2
    obtain ⟨-, h3, h4⟩ := C18_int32 vs i v h
    exact ⟨h3.mpr ⟨z, hd, h1, h2⟩, h4 z hd h1 h2⟩
  · intro i v z h hd h1 h2
    obtain ⟨-, h3, h4⟩ := C18_int64 vs i v h
    exact ⟨h3.mpr ⟨z, hd, h1, h2⟩, h4 z hd h1 h2⟩
  · intro i v k h hd h1
    exact (C18_unsigned_partial vs i v h k hd).2 h1
  · intro i v k h hd h1
    exact (C18_unsigned_partial vs i v h k hd).1 h1
  · intro i v h ha
    obtain ⟨h1, -, h3, -⟩ := C17_bool_check_matches_get vs i v h
    exact ⟨h1.mpr ⟨true, h3.mpr ha⟩, h3.mpr ha⟩
  · intro i v h ha
    obtain ⟨h1, -, -, h4⟩ := C17_bool_check_matches_get vs i v h
    exact ⟨h1.mpr ⟨false, h4.mpr ha⟩, h4.mpr ha⟩
  · intro i v h hn he
    exact (C19_scalar_partial erange vs i v h).1 hn he
  · intro h
    exact (C19_vector_partial erange vs).1 h

/-- A text of the document: any layout of its words, with comments and blanks. -/
def TextOf (items : List Item) (text : List Char) : Prop :=
  ∃ (L : Layout) (trail : List Sep), L.Ok false ∧ L.pieces.map Piece.str = itemsWords items ∧ (∀ s ∈ trail, s.Ok) ∧
    text = L.text ++ sepText trail

/-- A document that can be written. -/
def GoodDoc (reg : Registry) (items : List Item) : Prop := items ≠ [] ∧ itemsValid reg items

theorem load_text {reg : Registry} {items : List Item} (hg : GoodDoc reg items) {text : List Char} (ht : TextOf items text)
    (fs : Str → Option (List Char)) (n : Nat) (err : Bool) :
    ∃ root, fromString reg fs (n + 1) err text = .interp (.ok root err) ∧ root.Uniq ∧
      ∀ p name, root.valuesAt (idPath reg p) name = lastDef p name items := by
  obtain ⟨L, trail, hL, hw, htr, rfl⟩ := ht
  obtain ⟨root, h1, h2⟩ := C09_last_definition_wins reg fs n err items hg.1 hg.2 L hL hw trail htr
  refine ⟨root, h1, ?_, h2⟩
  unfold fromString at h1
  split at h1
  · injection h1 with h1
    exact C09_no_duplicates _ _ _ _ _ h1
  all_goals cases h1

/-- **C114** In every text of a document, the setting `name` in the block `p` has the values of its last definition; the getters of
that setting give the numbers and truth values which these denote. -/
theorem C114_loaded (reg : Registry) (fs : Str → Option (List Char)) (n : Nat) (err : Bool) (erange : Str → Bool)
    (items : List Item) (hg : GoodDoc reg items) (text : List Char) (ht : TextOf items text) :
    ∃ root, fromString reg fs (n + 1) err text = .interp (.ok root err) ∧
      ∀ p name vs, lastDef p name items = some vs → root.valuesAt (idPath reg p) name = some vs ∧ ReadsAs erange vs := by
  obtain ⟨root, h1, -, h2⟩ := load_text hg ht fs n err
  exact ⟨root, h1, fun p name vs h => ⟨by rw [h2, h], readsAs erange vs⟩⟩

/-- **C114** Two texts, the second merged into the first with new names allowed: the definition in the second counts, or else that in
the first. -/
theorem C114_merged (reg : Registry) (fs fs' : Str → Option (List Char)) (n n' : Nat) (err err' : Bool) (erange : Str → Bool)
    (first second : List Item) (hf : GoodDoc reg first) (hs : GoodDoc reg second) (t1 t2 : List Char) (h1 : TextOf first t1)
    (h2 : TextOf second t2) :
    ∃ r1 r2, fromString reg fs (n + 1) err t1 = .interp (.ok r1 err) ∧ fromString reg fs' (n' + 1) err' t2 = .interp (.ok r2 err') ∧
      (merge true r2 r1).2 = none ∧
      ∀ p name vs, (lastDef p name second <|> lastDef p name first) = some vs →
        (merge true r2 r1).1.valuesAt (idPath reg p) name = some vs ∧ ReadsAs erange vs := by
  obtain ⟨r1, e1, -, v1⟩ := load_text hf h1 fs n err
  obtain ⟨r2, e2, u2, v2⟩ := load_text hs h2 fs' n' err'
  obtain ⟨hn, hv⟩ := C14_right_biased_union r2 r1 u2
  refine ⟨r1, r2, e1, e2, hn, fun p name vs h => ⟨?_, readsAs erange vs⟩⟩
  rw [hv, v2, v1, ← h]
  cases lastDef p name second <;> rfl

/-- **C114** The same without new names: a definition of the second text counts where the first text has one. -/
theorem C114_merged_known (reg : Registry) (fs fs' : Str → Option (List Char)) (n n' : Nat) (err err' : Bool) (erange : Str → Bool)
    (first second : List Item) (hf : GoodDoc reg first) (hs : GoodDoc reg second) (t1 t2 : List Char) (h1 : TextOf first t1)
    (h2 : TextOf second t2) :
    ∃ r1 r2, fromString reg fs (n + 1) err t1 = .interp (.ok r1 err) ∧ fromString reg fs' (n' + 1) err' t2 = .interp (.ok r2 err') ∧
      ∀ p name v, lastDef p name first = some v →
        ∃ vs, (lastDef p name second = some vs ∨ (lastDef p name second = none ∧ vs = v)) ∧
        (merge false r2 r1).1.valuesAt (idPath reg p) name = some vs ∧ ReadsAs erange vs := by
  obtain ⟨r1, e1, -, v1⟩ := load_text hf h1 fs n err
  obtain ⟨r2, e2, u2, v2⟩ := load_text hs h2 fs' n' err'
  refine ⟨r1, r2, e1, e2, fun p name v h => ?_⟩
  have hv := C13_values r2 r1 u2 (idPath reg p) name
  rw [v2, v1, h] at hv
  cases h' : lastDef p name second with
  | none => exact ⟨v, Or.inr ⟨rfl, rfl⟩, by rw [hv, h'], readsAs erange v⟩
  | some w => exact ⟨w, Or.inl rfl, by rw [hv, h'], readsAs erange w⟩

/-- **C114** The text of every whole number is read as that number: a document `name = z;` for any 32-bit number `z`. -/
theorem C114_number (reg : Registry) (fs : Str → Option (List Char)) (n : Nat) (err : Bool) (name : Str) (z : Int)
    (hz : -2 ^ 31 ≤ z) (hz' : z < 2 ^ 31) (hg : GoodDoc reg [.set name (intText z) []]) (text : List Char)
    (ht : TextOf [.set name (intText z) []] text) :
    ∃ root vs, fromString reg fs (n + 1) err text = .interp (.ok root err) ∧ root.valuesAt [] name = some vs ∧
      getInteger32 vs 0 = .val z := by
  obtain ⟨root, h1, h2⟩ := C114_loaded reg fs n err (fun _ => false) _ hg text ht
  obtain ⟨h3, h4⟩ := h2 [] name [intText z] (by simp [lastDef, Item.defines])
  exact ⟨root, _, h1, h3, (h4.int32 0 _ z rfl (C18_every_integer_written z) hz hz').2⟩

/-- Every document whose words are not empty and contain no quotation mark or NUL has a text. -/
theorem canonical_textOf (items : List Item) (hw : ∀ w ∈ itemsWords items, w ≠ [] ∧ ∀ c ∈ w, c ≠ '"' ∧ c ≠ '\x00') :
    TextOf items (canonical items) :=
  ⟨(itemsWords items).map (fun w => (([] : List Sep), quoteWord w)), [], layout_quoted_ok _ hw false,
    by simp [Layout.pieces, Function.comp_def, quoteWord_str], by simp, by simp [canonical, sepText]⟩

/-- A document and a text of it. -/
example : GoodDoc [] [.set ['a'] (intText (-12)) []] ∧ TextOf [.set ['a'] (intText (-12)) []] "\"a\"=\"-12\";".toList := by
  have hi : intText (-12) = ['-', '1', '2'] := by decide +kernel
  have hc : canonical [.set ['a'] (intText (-12)) []] = "\"a\"=\"-12\";".toList := by
    rw [hi]; simp only [canonical, itemsWords, Item.words]; decide
  refine ⟨⟨by simp, by simp [itemsValid, Item.Valid, NotPunct, IsPunct, hi]⟩, hc ▸ canonical_textOf _ ?_⟩
  rw [hi]; simp only [itemsWords, Item.words]; decide

end Softlib
