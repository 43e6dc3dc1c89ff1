/-
Properties C06 to C09: round trip of configuration texts, accepted grammar, undefined
behaviour on syntax errors, re-definition and re-opening.
-/
import Verif.Config.LexProps
import Verif.Config.DocLemmas
import Verif.Config.UbLemmas

namespace Softlib

open Softlib.Config

/-! ### C07: the accepted grammar -/

/-- C07, every non-empty stream: no error is reported exactly for the sentences of the
grammar with balanced braces.  Missing from the full statement: the empty stream, see
`C07_refuted`. -/
theorem C07_accepts_grammar_partial (reg : Registry) (us : List Tok) (e : Tok) (he : e.ty = .eof)
    (hne : us ≠ []) (hno : ∀ t ∈ us, t.ty ≠ .eof) :
    (∃ root, interpret reg false (us ++ [e]) = .ok root false) ↔ Stmts 0 us 0 := by
  constructor
  · rintro ⟨root, h⟩
    exact (sound_aux us.length us _ root e (Nat.le_refl _) hne he hno h).1
  · intro h
    cases us with
    | nil => exact absurd rfl hne
    | cons t us =>
      rw [interpret_eq_cont reg false (by intro x hx; simp at hx; subst hx; exact hno t (by simp))
        (by simp)]
      obtain ⟨st', hc, hp, hf⟩ := cont_Stmts reg (rest := [e]) h
        ⟨Block.fresh 0 "<root>".toList [], [], false⟩ rfl
      rw [hc]
      refine ⟨st'.root, ?_⟩
      have : st'.path = [] := List.length_eq_zero_iff.1 hp
      simp [cont, he, this, hf]

/-- C07, from text: when a text lexes, its tokens other than the final EOF decide. -/
theorem C07_text_accepted_partial (reg : Registry) (fs : Str → Option (List Char)) (n : Nat)
    (text : List Char) (ts : List Tok) (pw ins ini : Bool)
    (h : lexDepth reg fs n text = .ok ts pw ins ini) (hne : ts.length ≠ 1) :
    (∃ root, fromString reg fs n false text = .interp (.ok root false)) ↔ Stmts 0 ts.dropLast 0 := by
  obtain ⟨us, last, rfl, hl, hu⟩ := C01_closed_by_one_eof reg fs n text ts pw ins ini h
  have hus : us ≠ [] := by rintro rfl; simp at hne
  rw [List.dropLast_concat, ← C07_accepts_grammar_partial reg us last hl hus (fun t ht => (hu t ht).1)]
  simp only [fromString, h, LoadRes.interp.injEq]

/-- C07: a grammatical stream that leaves blocks open is rejected by an exception. -/
theorem C07_unclosed_rejected (reg : Registry) (err : Bool) (us : List Tok) (e : Tok)
    (he : e.ty = .eof) (d : Nat) (h : Stmts 0 us (d + 1)) : interpret reg err (us ++ [e]) = .thrown := by
  have hne : us ≠ [] := by
    rintro rfl
    generalize hz : (0 : Nat) = z at h
    generalize hl : ([] : List Tok) = l at h
    generalize hd : d + 1 = d' at h
    cases h with
    | nil => omega
    | cons h1 h2 =>
      have := List.append_eq_nil_iff.1 hl.symm
      exact h1.ne_nil this.1
  cases us with
  | nil => exact absurd rfl hne
  | cons t us =>
    rw [interpret_eq_cont reg err (by
      intro x hx; simp at hx; subst hx; exact h.no_eof t (by simp)) (by simp)]
    obtain ⟨st', hc, hp, hf⟩ := cont_Stmts reg (rest := [e]) h
      ⟨Block.fresh 0 "<root>".toList [], [], err⟩ rfl
    rw [hc]
    have : st'.path ≠ [] := by intro h0; rw [h0] at hp; simp at hp
    simp [cont, he, this]

/-- C07 as stated fails: the empty document belongs to the grammar, but loading it is
undefined behaviour. -/
theorem C07_refuted : ¬ ∀ (reg : Registry) (us : List Tok), (∀ t ∈ us, t.ty ≠ .eof) →
    ((∃ root, interpret reg false (us ++ [eofTok]) = .ok root false) ↔ Stmts 0 us 0) := by
  intro h
  obtain ⟨root, h⟩ := (h [] [] (by simp)).2 .nil
  rw [List.nil_append, interpret, interpLoop_eq] at h
  simp [stmtCatch, stmt, eofTok, advanceTo] at h

/-- `a = 1; type b { c = x y; }` -/
def exampleTokens : List Tok :=
  [⟨.name, ['a']⟩, ⟨.equals, ['=']⟩, ⟨.value, ['1']⟩, ⟨.endStatement, [';']⟩,
   ⟨.blocktype, ['t']⟩, ⟨.blockname, ['b']⟩, ⟨.blockStart, ['{']⟩,
   ⟨.name, ['c']⟩, ⟨.equals, ['=']⟩, ⟨.value, ['x']⟩, ⟨.value, ['y']⟩, ⟨.endStatement, [';']⟩,
   ⟨.blockEnd, ['}']⟩]

theorem exampleTokens_grammar : Stmts 0 exampleTokens 0 :=
  .cons (u := [⟨.name, ['a']⟩, ⟨.equals, ['=']⟩, ⟨.value, ['1']⟩, ⟨.endStatement, [';']⟩])
    (.setting (vs := []) rfl rfl rfl (by simp) rfl)
  (.cons (u := [⟨.blocktype, ['t']⟩, ⟨.blockname, ['b']⟩, ⟨.blockStart, ['{']⟩])
    (.openBlock rfl rfl rfl)
  (.cons (u := [⟨.name, ['c']⟩, ⟨.equals, ['=']⟩, ⟨.value, ['x']⟩, ⟨.value, ['y']⟩,
      ⟨.endStatement, [';']⟩])
    (.setting (vs := [⟨.value, ['y']⟩]) rfl rfl rfl (by simp) rfl)
  (.cons (u := [⟨.blockEnd, ['}']⟩]) (.closeBlock rfl) .nil)))

example : ∃ root, interpret ["/root".toList, ['t']] false (exampleTokens ++ [eofTok]) =
    .ok root false :=
  (C07_accepts_grammar_partial _ exampleTokens eofTok rfl (by simp [exampleTokens])
    (by decide)).2 exampleTokens_grammar

/-- A stream outside the grammar, rejected (`a = ;`). -/
example : ¬ ∃ root, interpret [] false
    ([⟨.name, ['a']⟩, ⟨.equals, ['=']⟩, ⟨.endStatement, [';']⟩] ++ [eofTok]) = .ok root false := by
  rw [C07_accepts_grammar_partial _ _ eofTok rfl (by simp) (by decide)]
  intro h
  generalize hz : (0 : Nat) = z at h
  generalize hl : [(⟨.name, ['a']⟩ : Tok), ⟨.equals, ['=']⟩, ⟨.endStatement, [';']⟩] = l at h
  cases h with
  | nil => cases hl
  | cons h1 h2 =>
    cases h1 with
    | setting hn he hv hvs hs =>
      simp only [List.cons_append, List.cons.injEq] at hl
      obtain ⟨-, -, h3, -⟩ := hl
      rw [← h3] at hv; cases hv
    | openBlock ht hn hl' =>
      simp only [List.cons_append, List.cons.injEq] at hl
      rw [← hl.1] at ht; cases ht
    | openBlockSec ht _ _ _ _ _ =>
      simp only [List.cons_append, List.cons.injEq] at hl
      rw [← hl.1] at ht; cases ht
    | closeBlock hc =>
      simp only [List.cons_append, List.cons.injEq] at hl
      rw [← hl.1] at hc; cases hc

/-! ### C08: syntax errors -/

/-- C08, what holds: whenever the last token before EOF is `;`, `{` or `}`, loading never
reads outside the token stream, however malformed the rest is.  Missing from the full
statement: streams ending otherwise, see `C08_cut_statement_ub`. -/
theorem C08_no_ub_partial (reg : Registry) (err : Bool) (us : List Tok) (l e : Tok)
    (he : e.ty = .eof) (hl : l.ty = .endStatement ∨ l.ty = .blockStart ∨ l.ty = .blockEnd)
    (hu : ∀ t ∈ us, t.ty ≠ .eof) : interpret reg err (us ++ [l, e]) ≠ .ub :=
  interpLoop_closed_ne_ub reg _ _ _ (Nat.le_refl _) ⟨us, l, e, rfl, he, hl, hu⟩

/-- C08, the failure: a well-formed document (blocks may be open) followed by a statement
that is cut short by the end of the text — for instance a missing final semicolon — makes
the interpreter read past the end of the token vector. -/
theorem C08_cut_statement_ub (reg : Registry) (err : Bool) (us u part more : List Tok) (e : Tok)
    (he : e.ty = .eof) (d a b : Nat) (h : Stmts 0 us d) (hs : Stmt1 a u b)
    (hu : u = part ++ more) (hp : part ≠ []) (hm : more ≠ []) :
    interpret reg err (us ++ part ++ [e]) = .ub := by
  have hpe : ∀ t ∈ part, t.ty ≠ .eof := fun t ht => hs.no_eof t (by rw [hu]; simp [ht])
  have hne : us ++ part ++ [e] ≠ [] := by simp
  rw [interpret_eq_cont reg err _ hne, List.append_assoc]
  · obtain ⟨st', hc, -, -⟩ := cont_Stmts reg (rest := part ++ [e]) h
      ⟨Block.fresh 0 "<root>".toList [], [], err⟩ rfl
    rw [hc]
    obtain ⟨st2, h2⟩ := stmt_cut reg st' hs hu hp hm he
    have h3 := stmtCatch_none_of_exn h2
    cases part with
    | nil => exact absurd rfl hp
    | cons t part =>
      simp only [List.cons_append] at h3 ⊢
      simp only [cont, hpe t (by simp), if_false]
      rw [interpLoop_eq, h3]
  · intro t ht
    cases us with
    | nil =>
      cases part with
      | nil => exact absurd rfl hp
      | cons x part => simp at ht; subst ht; exact hpe x (by simp)
    | cons x us => simp at ht; subst ht; exact h.no_eof x (by simp)

/-- C08 as stated fails. -/
theorem C08_refuted : ¬ ∀ (reg : Registry) (err : Bool) (us : List Tok), (∀ t ∈ us, t.ty ≠ .eof) →
    interpret reg err (us ++ [eofTok]) ≠ .ub := by
  intro h
  apply h [] false [⟨.name, ['a']⟩, ⟨.equals, ['=']⟩, ⟨.value, ['1']⟩] (by decide)
  exact C08_cut_statement_ub [] false []
    [⟨.name, ['a']⟩, ⟨.equals, ['=']⟩, ⟨.value, ['1']⟩, ⟨.endStatement, [';']⟩]
    [⟨.name, ['a']⟩, ⟨.equals, ['=']⟩, ⟨.value, ['1']⟩] [⟨.endStatement, [';']⟩]
    eofTok rfl 0 0 0 .nil (.setting (vs := []) rfl rfl rfl (by simp) rfl) rfl (by simp) (by simp)

/-- C08, from text: the one-setting text `a = 1` without semicolon. -/
theorem C08_missing_semicolon_text (fs : Str → Option (List Char)) (n : Nat) (err : Bool) :
    fromString Registry.init fs (n + 1) err "a = 1".toList = .interp .ub := by
  have ht := C04_tokens_of_layout Registry.init fs n
    [([], .bare "a".toList), ([.blank ' '], .punct '='), ([.blank ' '], .bare "1".toList)] []
    (by
      simp [Layout.Ok, Piece.Ok, Sep.Ok, IsWordChar, IsWs, IsPunct]) (by simp)
  have e : Layout.text [([], .bare "a".toList), ([.blank ' '], .punct '='),
      ([.blank ' '], .bare "1".toList)] ++ sepText [] = "a = 1".toList := by decide
  rw [e] at ht
  unfold fromString
  revert ht
  cases lexDepth Registry.init fs (n + 1) "a = 1".toList with
  | ok ts pw ins ini =>
    intro ht
    simp only [LexRes.tokens, Option.some.injEq] at ht
    subst ht
    simp only
    congr 1
    exact C08_cut_statement_ub Registry.init err []
      [⟨.name, ['a']⟩, ⟨.equals, ['=']⟩, ⟨.value, ['1']⟩, ⟨.endStatement, [';']⟩]
      [⟨.name, ['a']⟩, ⟨.equals, ['=']⟩, ⟨.value, ['1']⟩] [⟨.endStatement, [';']⟩]
      eofTok rfl 0 0 0 .nil (.setting (vs := []) rfl rfl rfl (by simp) rfl) rfl (by simp) (by simp)
  | _ => simp [LexRes.tokens]

example : interpret [] false
    ([⟨.equals, ['=']⟩, ⟨.value, ['x']⟩, ⟨.name, ['a']⟩] ++ [⟨.blockEnd, ['}']⟩, eofTok]) ≠ .ub :=
  C08_no_ub_partial _ _ _ _ _ rfl (by simp) (by decide)

/-! ### C06: round trip -/

/-- Loading a laid out document. -/
theorem fromString_layout (reg : Registry) (fs : Str → Option (List Char)) (n : Nat) (err : Bool)
    (items : List Item) (hne : items ≠ []) (hv : itemsValid reg items) (L : Layout)
    (hL : L.Ok false) (hw : L.pieces.map Piece.str = itemsWords items) (trail : List Sep)
    (ht : ∀ s ∈ trail, s.Ok) :
    fromString reg fs (n + 1) err (L.text ++ sepText trail) =
      .interp (.ok (applyItems reg items (Block.fresh 0 "<root>".toList [])) err) := by
  have hl := C04_tokens_of_layout reg fs n L trail hL ht
  unfold fromString
  revert hl
  cases lexDepth reg fs (n + 1) (L.text ++ sepText trail) with
  | ok ts pw ins ini =>
    intro hl
    simp only [LexRes.tokens, Option.some.injEq] at hl
    subst hl
    obtain ⟨q, -, e⟩ := itemsToks_eq items hv none (by simp [Neutral]) []
    simp only [List.append_nil, tokensFrom] at e
    simp only [hw, e]
    congr 1
    have hh : itemsToks items ++ [eofTok] ≠ [] ∧ ∀ t, (itemsToks items ++ [eofTok]).head? = some t →
        t.ty ≠ .eof := by
      cases items with
      | nil => exact absurd rfl hne
      | cons i is => cases i <;> simp [itemsToks, Item.toks]
    rw [interpret_eq_cont reg err hh.2 hh.1]
    rw [cont_items items hv _ (Block.fresh 0 "<root>".toList []) rfl]
    simp [cont, eofTok, Block.modifyAt]
  | _ => simp [LexRes.tokens]

/-- C06: any layout (blanks, commas, comments, quoted or unquoted words) of a document that
defines nothing twice loads as exactly the document's tree, and the error flag is left as
it was.  Missing from the full statement: the empty document, see `C06_empty_document_ub`. -/
theorem C06_round_trip_partial (reg : Registry) (fs : Str → Option (List Char)) (n : Nat) (err : Bool)
    (items : List Item) (hne : items ≠ []) (hv : itemsValid reg items) (hd : DocDistinct items)
    (L : Layout) (hL : L.Ok false) (hw : L.pieces.map Piece.str = itemsWords items)
    (trail : List Sep) (ht : ∀ s ∈ trail, s.Ok) :
    fromString reg fs (n + 1) err (L.text ++ sepText trail) = .interp (.ok (docTree reg items) err) := by
  rw [fromString_layout reg fs n err items hne hv L hL hw trail ht]
  rw [applyItems_tree items hv hd.2.2 hd.1 hd.2.1 _ (by simp [Block.fresh, Block.settings])
    (by simp [Block.fresh, Block.subs])]
  simp [docTree, Block.fresh, Block.settings, Block.subs, Block.ty, Block.name, Block.sec]

/-- A canonical way to write a word: in quotes, unless it is a punctuation mark. -/
def quoteWord (s : Str) : Piece :=
  match s with
  | ['='] => .punct '='
  | ['('] => .punct '('
  | [')'] => .punct ')'
  | ['{'] => .punct '{'
  | ['}'] => .punct '}'
  | [';'] => .punct ';'
  | _ => .quoted s

/-- Canonical text of a document: every word in quotes, punctuation marks in between. -/
def canonical (items : List Item) : Str :=
  Layout.text ((itemsWords items).map (fun w => (([] : List Sep), quoteWord w)))

theorem quoteWord_str (s : Str) : (quoteWord s).str = s := by
  unfold quoteWord
  split <;> rfl

theorem layout_quoted_ok (ws : List Str) (h : ∀ w ∈ ws, w ≠ [] ∧ ∀ c ∈ w, c ≠ '"' ∧ c ≠ '\x00')
    (b : Bool) : Layout.Ok b (ws.map (fun w => (([] : List Sep), quoteWord w))) := by
  induction ws generalizing b with
  | nil => trivial
  | cons w ws ih =>
    have hw := h w (by simp)
    have hq : (quoteWord w).Ok ∧ ∀ x, quoteWord w ≠ .bare x := by
      unfold quoteWord
      split <;> simp [Piece.Ok, IsPunct]
      exact hw
    refine ⟨by simp, hq.1, ?_, ih (fun x hx => h x (by simp [hx])) _⟩
    rintro - ⟨x, hx⟩
    exact absurd hx (hq.2 x)

/-- C06, a concrete printer: the canonical text of any document whose words are non-empty
and contain no quotation mark or NUL loads as the document's tree. -/
theorem C06_canonical_round_trip_partial (reg : Registry) (fs : Str → Option (List Char)) (n : Nat)
    (items : List Item) (hne : items ≠ []) (hv : itemsValid reg items) (hd : DocDistinct items)
    (hw : ∀ w ∈ itemsWords items, w ≠ [] ∧ ∀ c ∈ w, c ≠ '"' ∧ c ≠ '\x00') :
    fromString reg fs (n + 1) false (canonical items) = .interp (.ok (docTree reg items) false) := by
  have := C06_round_trip_partial reg fs n false items hne hv hd
    ((itemsWords items).map (fun w => (([] : List Sep), quoteWord w)))
    (layout_quoted_ok _ hw false)
    (by simp [Layout.pieces, Function.comp_def, quoteWord_str]) [] (by simp)
  simpa [canonical, sepText] using this

/-- C06 as stated fails for the empty document: loading it is undefined behaviour. -/
theorem C06_empty_document_ub (reg : Registry) (fs : Str → Option (List Char)) (n : Nat) (err : Bool) :
    fromString reg fs (n + 1) err [] = .interp .ub := by
  have hl := C04_tokens_of_layout reg fs n [] [] trivial (by simp)
  unfold fromString
  revert hl
  have e : Layout.text [] ++ sepText [] = [] := rfl
  rw [e]
  cases lexDepth reg fs (n + 1) [] with
  | ok ts pw ins ini =>
    intro hl
    simp only [LexRes.tokens, Option.some.injEq] at hl
    subst hl
    simp only [Layout.pieces, List.map_nil, tokensFrom, List.nil_append, interpret]
    rw [interpLoop_eq]
    simp [stmtCatch, stmt, eofTok, advanceTo]
  | _ => simp [LexRes.tokens]

/-- `a = 1, 2 words; t b (s) { c = x; }` with one registered type. -/
def exampleDoc : List Item :=
  [.set ['a'] ['1'] ["2 words".toList],
   .blk ['t'] ['b'] (some ['s']) [.set ['c'] ['x'] [], .blk ['t'] ['b'] none []]]

theorem exampleDoc_valid : itemsValid ["/root".toList, ['t']] exampleDoc := by
  simp [exampleDoc, itemsValid, Item.Valid, NotPunct, IsPunct]

theorem exampleDoc_distinct : DocDistinct exampleDoc := by
  simp [exampleDoc, DocDistinct, setNames, blkKeys, itemsDistinct, Item.Distinct]

example : fromString ["/root".toList, ['t']] (fun _ => none) 1 false (canonical exampleDoc) =
    .interp (.ok (docTree ["/root".toList, ['t']] exampleDoc) false) :=
  C06_canonical_round_trip_partial _ _ 0 _ (by simp [exampleDoc]) exampleDoc_valid
    exampleDoc_distinct (by
      simp only [exampleDoc, itemsWords, Item.words, secWords]
      decide)

/-- The canonical text of the example. -/
example : canonical exampleDoc =
    "\"a\"=\"1\"\"2 words\";\"t\"\"b\"(\"s\"){\"c\"=\"x\";\"t\"\"b\"{}}".toList := by
  simp only [canonical, exampleDoc, itemsWords, Item.words, secWords]
  decide

/-! ### C09: re-definition and re-opening -/

/-- C09: after loading any document (with repetitions), each setting path holds the values
of its last definition, and nothing else is defined. -/
theorem C09_last_definition_wins (reg : Registry) (fs : Str → Option (List Char)) (n : Nat)
    (err : Bool) (items : List Item) (hne : items ≠ []) (hv : itemsValid reg items) (L : Layout)
    (hL : L.Ok false) (hw : L.pieces.map Piece.str = itemsWords items) (trail : List Sep)
    (ht : ∀ s ∈ trail, s.Ok) :
    ∃ root, fromString reg fs (n + 1) err (L.text ++ sepText trail) = .interp (.ok root err) ∧
      ∀ p name, root.valuesAt (idPath reg p) name = lastDef p name items := by
  refine ⟨_, fromString_layout reg fs n err items hne hv L hL hw trail ht, ?_⟩
  intro p name
  rw [valuesAt_applyItems items hv]
  rw [valuesAt_fresh]
  cases lastDef p name items <;> rfl

/-- C09: no block of a loaded tree holds two settings of one name or two sub-blocks of one
type and name, whatever the token stream (malformed statements included). -/
theorem C09_no_duplicates (reg : Registry) (err : Bool) (ts : List Tok) (root : Block) (e : Bool)
    (h : interpret reg err ts = .ok root e) : root.Uniq := by
  have key : ∀ n, ∀ (st : ISt) (s : List Tok), s.length ≤ n → st.root.Uniq →
      interpLoop reg st s = .ok root e → root.Uniq := by
    intro n
    induction n with
    | zero =>
      intro st s hs _ h
      have : s = [] := List.length_eq_zero_iff.1 (by omega)
      subst this
      rw [interpLoop_eq] at h
      simp [stmtCatch, stmt] at h
    | succ n ih =>
      intro st s hs hu h
      rw [interpLoop_eq] at h
      split at h
      · cases h
      · rename_i st' s' hc
        have hu' : st'.root.Uniq := by
          have := stmt_uniq reg hu s
          unfold stmtCatch at hc
          split at hc
          · cases hc
          · rename_i heq; rw [heq] at this; cases hc; exact this
          · rename_i heq
            rw [heq] at this
            split at hc
            · cases hc
            · cases hc; exact this
        split at h
        · cases h
        · rename_i s'' ha
          refine ih st' s'' ?_ hu' h
          have := advance_true_length ha
          have := stmtCatch_length hc
          omega
        · split at h
          · cases h; exact hu'
          · cases h
  exact key _ _ _ (Nat.le_refl _) (Block.uniq_fresh _ _ _) h

mutual
theorem find_applyItem {bts : List Str} (i : Item) (h : i.Valid bts) (b : Block)
    (p : List (Str × Str)) (hp : p ≠ []) :
    ((applyItem bts i b).find (idPath bts p)).isSome =
      (i.opens p || (b.find (idPath bts p)).isSome) := by
  cases p with
  | nil => exact absurd rfl hp
  | cons k p =>
    cases i with
    | set m v vs =>
      simp only [applyItem, Item.opens, Bool.false_or, idPath, List.map_cons, Block.find]
      have : (b.addSetting ⟨m, v :: vs, false⟩).subs = b.subs := by
        unfold Block.addSetting; split <;> rfl
      rw [this]
    | blk t m sec body =>
      simp only [Item.Valid] at h
      obtain ⟨-, h2, -, -, h5⟩ := h
      simp only [applyItem, idPath, List.map_cons, Block.find]
      have hf := find_openBlock b (typeId bts t) m (sec.getD []) (applyItems bts body)
        (fun c => key_applyItems bts body c) (typeId bts k.1, k.2)
      simp only at hf
      rw [hf]
      by_cases hkm : (t, m) = k
      · subst hkm
        simp only [if_true, Item.opens, BEq.rfl, Bool.true_and]
        rw [show List.map (fun k => (typeId bts k.1, k.2)) p = idPath bts p from rfl]
        cases p with
        | nil => simp [idPath, Block.find]
        | cons k' p' =>
          rw [find_applyItems body h5 _ (k' :: p') (by simp)]
          cases b.subs.find? (fun c => c.ty == typeId bts t && c.name == m) with
          | none => simp [idPath, Block.find, Block.fresh, Block.subs]
          | some c => simp
      · have hk' : ¬ (typeId bts k.1, k.2) = (typeId bts t, m) := by
          intro e
          simp only [Prod.mk.injEq] at e
          exact hkm (Prod.ext (typeId_inj h2 e.1.symm) e.2.symm)
        simp [hk', Item.opens, hkm]

theorem find_applyItems {bts : List Str} (is : List Item) (h : itemsValid bts is) (b : Block)
    (p : List (Str × Str)) (hp : p ≠ []) :
    ((applyItems bts is b).find (idPath bts p)).isSome =
      (itemsOpen p is || (b.find (idPath bts p)).isSome) := by
  cases is with
  | nil => simp [applyItems, itemsOpen]
  | cons i is =>
    simp only [itemsValid] at h
    simp only [applyItems, itemsOpen]
    rw [find_applyItems is h.2 _ p hp, find_applyItem i h.1 b p hp]
    cases i.opens p <;> simp
end

/-- C09: the loaded tree has exactly the blocks that the document opens (the several
openings of one type and name being one block). -/
theorem C09_blocks_are_those_opened (reg : Registry) (fs : Str → Option (List Char)) (n : Nat)
    (err : Bool) (items : List Item) (hne : items ≠ []) (hv : itemsValid reg items) (L : Layout)
    (hL : L.Ok false) (hw : L.pieces.map Piece.str = itemsWords items) (trail : List Sep)
    (ht : ∀ s ∈ trail, s.Ok) :
    ∃ root, fromString reg fs (n + 1) err (L.text ++ sepText trail) = .interp (.ok root err) ∧
      ∀ p, p ≠ [] → ((root.find (idPath reg p)).isSome = itemsOpen p items) := by
  refine ⟨_, fromString_layout reg fs n err items hne hv L hL hw trail ht, ?_⟩
  intro p hp
  rw [find_applyItems items hv _ p hp]
  cases p with
  | nil => exact absurd rfl hp
  | cons k p => simp [idPath, Block.find, Block.fresh, Block.subs]

/-- C09, listing by type: in every loaded tree `GetAllSubBlocksOfType` lists exactly the blocks
that are found by this type and their name, no name twice, in the order of the tree;
`HasSubBlocks` tells whether there is any. -/
theorem C09_blocks_of_type (reg : Registry) (err : Bool) (ts : List Tok) (root : Block) (e : Bool)
    (h : interpret reg err ts = .ok root e) (p : List (Nat × Str)) (b : Block)
    (hb : root.find p = some b) (t : Nat) :
    (∀ c, c ∈ b.getAllSubBlocksOfType t ↔ ∃ n, c.name = n ∧ root.find (p ++ [(t, n)]) = some c) ∧
    ((b.getAllSubBlocksOfType t).map Block.name).Nodup ∧
    (b.getAllSubBlocksOfType t).Sublist b.subs ∧
    (b.hasSubBlocksOfType t = true ↔ ∃ n c, root.find (p ++ [(t, n)]) = some c) := by
  have hf : ∀ (p q : List (Nat × Str)) (r b : Block), r.find p = some b → r.find (p ++ q) = b.find q := by
    intro p
    induction p with
    | nil => intro q r b hb; cases hb; rfl
    | cons k p ih =>
      intro q r b hb
      simp only [Block.find, List.cons_append] at hb ⊢
      split at hb
      · cases hb
      · exact ih q _ b hb
  have hu : ∀ (p : List (Nat × Str)) (r b : Block), r.Uniq → r.find p = some b → b.Uniq := by
    intro p
    induction p with
    | nil => intro r b hr hb; cases hb; exact hr
    | cons k p ih =>
      intro r b hr hb
      simp only [Block.find] at hb
      split at hb
      · cases hb
      · rename_i c hc
        exact ih c b (hr.elim.2.2 c (List.mem_of_find?_eq_some hc)) hb
  have hbu : b.Uniq := hu p root b (C09_no_duplicates reg err ts root e h) hb
  have hnd : (b.subs.map (fun c => (c.ty, c.name))).Nodup := hbu.elim.2.1
  have hfind : ∀ n, b.find [(t, n)] = b.subs.find? (fun c => c.ty == t && c.name == n) := by
    intro n
    simp only [Block.find]
    cases b.subs.find? (fun c => c.ty == t && c.name == n) <;> rfl
  have hmem : ∀ c, c ∈ b.subs → c.ty = t → b.find [(t, c.name)] = some c := by
    intro c hc ht
    rw [hfind]
    have key : ∀ l : List Block, (l.map (fun c => (c.ty, c.name))).Nodup → c ∈ l →
        l.find? (fun x => x.ty == t && x.name == c.name) = some c := by
      intro l
      induction l with
      | nil => intro _ h; cases h
      | cons a l ih =>
        intro hn hc
        rw [List.map_cons, List.nodup_cons] at hn
        rcases List.mem_cons.1 hc with rfl | hc
        · rw [List.find?_cons_of_pos (by simp [ht])]
        · rw [List.find?_cons_of_neg, ih hn.2 hc]
          intro hx
          simp only [Bool.and_eq_true, beq_iff_eq] at hx
          exact hn.1 (List.mem_map.2 ⟨c, hc, by rw [ht, hx.1, hx.2]⟩)
    exact key _ hnd hc
  have hback : ∀ n c, b.find [(t, n)] = some c → c ∈ b.subs ∧ c.ty = t ∧ c.name = n := by
    intro n c hc
    rw [hfind] at hc
    have h1 := List.mem_of_find?_eq_some hc
    have h2 := List.find?_some hc
    simp only [Bool.and_eq_true, beq_iff_eq] at h2
    exact ⟨h1, h2.1, h2.2⟩
  refine ⟨?_, ?_, List.filter_sublist, ?_⟩
  · intro c
    simp only [Block.getAllSubBlocksOfType, List.mem_filter, beq_iff_eq]
    constructor
    · rintro ⟨h1, h2⟩
      exact ⟨_, rfl, by rw [hf p _ root b hb]; exact hmem c h1 h2⟩
    · rintro ⟨n, _, h2⟩
      rw [hf p _ root b hb] at h2
      exact ⟨(hback n c h2).1, (hback n c h2).2.1⟩
  · have hs : ((b.getAllSubBlocksOfType t).map (fun c => (c.ty, c.name))).Nodup :=
      List.Nodup.sublist (List.Sublist.map _ List.filter_sublist) hnd
    have e : (b.getAllSubBlocksOfType t).map (fun c => (c.ty, c.name)) =
        ((b.getAllSubBlocksOfType t).map Block.name).map (fun n => (t, n)) := by
      rw [List.map_map]
      apply List.map_congr_left
      intro c hc
      simp only [Block.getAllSubBlocksOfType, List.mem_filter, beq_iff_eq] at hc
      simp [hc.2]
    rw [e] at hs
    exact (List.pairwise_map.1 hs).imp (fun h e => h (by rw [e]))
  · simp only [Block.hasSubBlocksOfType, List.any_eq_true, beq_iff_eq]
    constructor
    · rintro ⟨c, h1, h2⟩
      exact ⟨c.name, c, by rw [hf p _ root b hb]; exact hmem c h1 h2⟩
    · rintro ⟨n, c, h2⟩
      rw [hf p _ root b hb] at h2
      exact ⟨c, (hback n c h2).1, (hback n c h2).2.1⟩

/-- A document that defines `c` twice in two openings of one block. -/
example : lastDef [(['t'], ['b'])] ['c']
    [.blk ['t'] ['b'] none [.set ['c'] ['1'] [], .set ['d'] ['2'] []],
     .blk ['t'] ['b'] none [.set ['c'] ['3'] [['4']]]] = some [['3'], ['4']] ∧
   lastDef [(['t'], ['b'])] ['d']
    [.blk ['t'] ['b'] none [.set ['c'] ['1'] [], .set ['d'] ['2'] []],
     .blk ['t'] ['b'] none [.set ['c'] ['3'] [['4']]]] = some [['2']] := by
  constructor <;> simp [lastDef, Item.defines]

end Softlib
