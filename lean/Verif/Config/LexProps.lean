/-
Properties C01–C05 of the configuration lexer, and the lexing half of C06.
-/
import Verif.Config.LexKinds

namespace Softlib

open Config

/-! ### C01 -/

/-- C01.  Whenever lexing finishes (whatever files are included, to any depth), the token
list ends in the end-of-file token, there is no other, and all other tokens have text. -/
theorem C01_closed_by_one_eof (bts : List Str) (fs : Str → Option (List Char)) (n : Nat)
    (text : List Char) (ts : List Tok) (pw ins ini : Bool)
    (h : lexDepth bts fs n text = .ok ts pw ins ini) :
    ∃ us last, ts = us ++ [last] ∧ last.ty = .eof ∧ ∀ t ∈ us, t.ty ≠ .eof ∧ t.val ≠ [] := by
  have := lexDepth_good bts fs n text
  rw [h] at this
  obtain ⟨us, rfl, hu⟩ := this
  exact ⟨us, eofTok, rfl, rfl, hu⟩

/-- The premise is met by a real script, including one that includes a file. -/
example : (lexDepth ["@Blk".toList]
    (fun f => if f = "x".toList then some "c=3;".toList else none) 2
    "a = 1 ; <x> @Blk q { }".toList).tokens.map List.length = some 13 := by
  rw [lexDepth_eq_exec]
  decide +kernel

/-! ### C02 -/

/-- C02 is false for the code: a text whose last character is `#`, outside a string, makes
the lexer spin forever. -/
theorem C02_trailing_hash_diverges (bts : List Str) (fs : Str → Option (List Char)) (n : Nat)
    (pre : List Char) (hp : Plain pre) (hm : scanMode pre ≠ .string) :
    lexDepth bts fs (n + 1) (pre ++ ['#']) = .diverges := by
  rw [lexDepth_eq_fold]
  simp only [List.foldl_append, List.foldl_cons, List.foldl_nil]
  have := modeRel_fold bts (includeFile fs (lexDepth bts fs n))
        (m := .code) (a := .run none LexSt.init) ⟨rfl, rfl⟩ hp
  change ModeRel (scanMode pre) _ at this
  revert this
  generalize List.foldl (astep bts _) (.run none LexSt.init) pre = a
  cases hk : scanMode pre with
  | string => exact absurd hk hm
  | code =>
    intro this
    match a, this with
    | .run none s, h =>
      have : astep bts (includeFile fs (lexDepth bts fs n)) (.run none s) '#' = .run (some '#') s := by
        simp [astep, acode, h.1]
      rw [this]; rfl
  | comment =>
    intro this
    match a, this with
    | .run (some l) s, h =>
      have : astep bts (includeFile fs (lexDepth bts fs n)) (.run (some l) s) '#'
          = .run (some '#') s := by
        simp [astep]
      rw [this]; rfl

/-- Concrete witness: the one-line script `a = 1; #`. -/
theorem C02_refuted : ¬ ∀ (bts : List Str) (text : List Char), lexPlain bts text ≠ .diverges := by
  intro h
  exact h [] ("a = 1; ".toList ++ ['#'])
    (C02_trailing_hash_diverges [] _ 0 "a = 1; ".toList (by unfold Plain; decide) (by decide))

/-- C02, second cause of non-termination: a file that includes itself recurses without
bound; no nesting depth suffices. -/
theorem C02_self_include_unbounded (bts : List Str) (fs : Str → Option (List Char))
    (f : Str) (hf : ∀ c ∈ f, IsWordChar c) (hself : fs f = some ('<' :: (f ++ ['>']))) (n : Nat) :
    lexDepth bts fs n ('<' :: (f ++ ['>'])) = .tooDeep := by
  induction n with
  | zero => rfl
  | succ n ih =>
    rw [lexDepth_eq_fold]
    simp only [List.foldl_append, List.foldl_cons, List.foldl_nil]
    generalize hi : (includeFile fs (lexDepth bts fs n)) = inc
    have h0 : astep bts inc (.run none LexSt.init) '<' = .run none ⟨false, false, true, [], []⟩ := by
      simp [astep, acode, LexSt.init, feed, lexStep]
    have key : ∀ (w b : Str), (∀ c ∈ w, IsWordChar c) →
        w.foldl (astep bts inc) (.run none ⟨false, false, true, b, []⟩)
          = .run none ⟨false, false, true, b ++ w, []⟩ := by
      intro w
      induction w with
      | nil => intro b _; simp
      | cons c w ihw =>
        intro b hw
        obtain ⟨hws, hp, hh, hq, hlt, hgt, hcm, hz⟩ := hw c (by simp)
        have hws' : ¬ (c = '\n' ∨ c = ' ' ∨ c = '\t') := hws
        rw [List.foldl_cons]
        have : astep bts inc (.run none ⟨false, false, true, b, []⟩) c
            = .run none ⟨false, false, true, b ++ [c], []⟩ := by
          simp only [astep, acode, hh, hws', hz, feed, lexStep, hgt]
          simp [hgt]
        rw [this, ihw _ (fun x hx => hw x (by simp [hx]))]
        simp
    rw [h0, key f [] hf]
    have h1 : inc f = .tooDeep := by
      rw [← hi]; simp only [includeFile, hself]; exact ih
    simp [astep, acode, feed, lexStep, h1, afinish, afin0]

example : ∃ fs : Str → Option (List Char), fs "a".toList = some "<a>".toList ∧
    ∀ c ∈ "a".toList, IsWordChar c := by
  refine ⟨fun f => if f = "a".toList then some "<a>".toList else none, by decide, ?_⟩
  unfold IsWordChar IsWs IsPunct
  decide

/-- C02, what holds: if neither the text nor any includable file ends in `#`, lexing does
not spin, whatever the nesting.  (Missing from the full statement: texts ending in `#`,
and unbounded inclusion, both refuted above.) -/
theorem C02_terminates_partial (bts : List Str) (fs : Str → Option (List Char)) (n : Nat)
    (text : List Char) (hfs : ∀ f t, fs f = some t → t.getLast? ≠ some '#')
    (ht : text.getLast? ≠ some '#') : lexDepth bts fs n text ≠ .diverges := by
  intro h
  have := lexDepth_nodiv bts fs hfs n text ht
  rw [h] at this
  exact this

/-- C02, what holds without inclusions: a text without `>` that does not end in `#` is
lexed successfully, whatever the file system. -/
theorem C02_plain_terminates_partial (bts : List Str) (text : List Char)
    (hgt : ∀ c ∈ text, c ≠ '>') (ht : text.getLast? ≠ some '#') :
    ∃ ts pw ins ini, ∀ (fs : Str → Option (List Char)) (n : Nat),
      lexDepth bts fs (n + 1) text = .ok ts pw ins ini := by
  have h1 := lexDepth_okOrDiv bts (fun _ => none) 0 hgt
  have h2 := lexDepth_nodiv bts (fun _ => none) (by simp) 1 text ht
  have h3 : ∀ fs n, lexDepth bts fs (n + 1) text = lexDepth bts (fun _ => none) (0 + 1) text :=
    fun fs n => lexDepth_inc bts fs _ n 0 hgt
  cases hr : lexDepth bts (fun _ => none) (0 + 1) text with
  | ok ts pw ins ini => exact ⟨ts, pw, ins, ini, fun fs n => by rw [h3, hr]⟩
  | throw => rw [hr] at h1; exact h1.elim
  | diverges => exact absurd h2 (by rw [show (1 : Nat) = 0 + 1 from rfl, hr]; exact id)
  | tooDeep => rw [hr] at h1; exact h1.elim

example : (∀ c ∈ "a = 1; # c".toList, c ≠ '>') ∧ "a = 1; # c".toList.getLast? ≠ some '#' := by
  decide

/-! ### C03 -/

/-- C03, what holds: a comment ended by a newline can be removed from any position outside
strings without changing the outcome. (Missing from the full statement: comments ended by
the end of the text, see `C03_comment_at_eof_leaks`.) -/
theorem C03_comment_invisible_partial (bts : List Str) (fs : Str → Option (List Char)) (n : Nat)
    (pre cmt post : List Char) (hp : Plain pre) (hm : scanMode pre = .code)
    (hc : ∀ c ∈ cmt, c ≠ '\n' ∧ c ≠ '\x00') :
    lexDepth bts fs n (pre ++ ('#' :: (cmt ++ ('\n' :: post)))) =
      lexDepth bts fs n (pre ++ ('\n' :: post)) := by
  cases n with
  | zero => rfl
  | succ n =>
    rw [lexDepth_eq_fold, lexDepth_eq_fold]
    simp only [List.foldl_append, List.foldl_cons]
    generalize (includeFile fs (lexDepth bts fs n)) = inc
    obtain ⟨s, hs, h1, h2⟩ := code_state bts inc hp hm
    rw [hs]
    have h0 : astep bts inc (.run none s) '#' = .run (some '#') s := by
      simp [astep, acode, h1]
    rw [h0]
    obtain ⟨l', hl⟩ := fold_in_comment bts inc s '#' hc
    rw [hl]
    have : astep bts inc (.run (some l') s) '\n' = astep bts inc (.run none s) '\n' := by
      simp [astep]
    rw [this]

example : Plain "a = \"#\";".toList ∧ scanMode "a = \"#\";".toList = .code := by
  unfold Plain; decide

/-- C03 is false for a comment that runs to the end of the text: exactly its last character
is read as program text. -/
theorem C03_comment_at_eof_leaks (bts : List Str) (fs : Str → Option (List Char)) (n : Nat)
    (pre cmt : List Char) (c : Char) (hp : Plain pre) (hm : scanMode pre = .code)
    (hc : ∀ x ∈ cmt, x ≠ '\n' ∧ x ≠ '\x00') (h : c ≠ '#' ∧ c ≠ '\n' ∧ c ≠ '\x00') :
    lexDepth bts fs n (pre ++ ('#' :: (cmt ++ [c]))) = lexDepth bts fs n (pre ++ [c]) := by
  cases n with
  | zero => rfl
  | succ n =>
    rw [lexDepth_eq_fold, lexDepth_eq_fold]
    simp only [List.foldl_append, List.foldl_cons, List.foldl_nil]
    generalize (includeFile fs (lexDepth bts fs n)) = inc
    obtain ⟨s, hs, h1, h2⟩ := code_state bts inc hp hm
    rw [hs]
    have h0 : astep bts inc (.run none s) '#' = .run (some '#') s := by
      simp [astep, acode, h1]
    rw [h0]
    obtain ⟨l', hl⟩ := fold_in_comment bts inc s '#' hc
    rw [hl]
    have h3 : astep bts inc (.run (some l') s) c = .run (some c) s := by
      simp [astep, h.2.1, h.2.2]
    rw [h3, afinish_comment, if_neg h.1]
    change _ = afinish bts inc (acode bts inc s c)
    cases ha : acode bts inc s c with
    | done r => rfl
    | run cm s' =>
      cases cm with
      | none => rfl
      | some l =>
        have := acode_comment bts inc ha
        subst this
        exfalso
        unfold acode feed at ha
        repeat' split at ha
        all_goals simp_all

/-- Concrete witness: the script `# x}` is not equivalent to the empty script. -/
theorem C03_refuted : ¬ ∀ (bts : List Str) (cmt : List Char), (∀ c ∈ cmt, c ≠ '\n' ∧ c ≠ '\x00') →
    (lexPlain bts ('#' :: cmt)).tokens = (lexPlain bts []).tokens := by
  intro h
  have h1 := h [] " x}".toList (by decide)
  revert h1
  have := C03_comment_at_eof_leaks [] (fun _ => none) 1 [] " x".toList '}'
    (by unfold Plain; decide) (by decide) (by decide) (by decide)
  simp only [lexPlain]
  have e : ('#' :: " x}".toList : List Char) = [] ++ ('#' :: (" x".toList ++ ['}'])) := by decide
  rw [e, this]
  decide +kernel

/-! ### C04 -/

/-- C04: any non-empty run of blanks outside strings and comments can be replaced by any
other one. -/
theorem C04_blank_runs_interchangeable (bts : List Str) (fs : Str → Option (List Char)) (n : Nat)
    (pre w1 w2 post : List Char) (hp : Plain pre) (hm : scanMode pre = .code)
    (h1 : ∀ c ∈ w1, IsWs c) (h2 : ∀ c ∈ w2, IsWs c) (n1 : w1 ≠ []) (n2 : w2 ≠ []) :
    lexDepth bts fs n (pre ++ (w1 ++ post)) = lexDepth bts fs n (pre ++ (w2 ++ post)) := by
  cases n with
  | zero => rfl
  | succ n =>
    rw [lexDepth_eq_fold, lexDepth_eq_fold]
    simp only [List.foldl_append]
    generalize (includeFile fs (lexDepth bts fs n)) = inc
    obtain ⟨s, hs, hi1, hi2⟩ := code_state bts inc hp hm
    rw [hs, ws_idem bts inc hi1 hi2 h1 n1, ws_idem bts inc hi1 hi2 h2 n2]

/-- C04: blanks after punctuation, in particular leading layout after it, do not matter. -/
theorem C04_blanks_after_punctuation (bts : List Str) (fs : Str → Option (List Char)) (n : Nat)
    (pre w post : List Char) (c : Char) (hp : Plain pre) (hm : scanMode pre = .code)
    (hc : IsPunct c) (hw : ∀ c ∈ w, IsWs c) :
    (lexDepth bts fs n (pre ++ (c :: (w ++ post)))).erase =
      (lexDepth bts fs n (pre ++ (c :: post))).erase := by
  cases n with
  | zero => rfl
  | succ n =>
    rw [lexDepth_eq_fold, lexDepth_eq_fold]
    simp only [List.foldl_append, List.foldl_cons]
    generalize (includeFile fs (lexDepth bts fs n)) = inc
    obtain ⟨s, hs, hi1, hi2⟩ := code_state bts inc hp hm
    rw [hs, punct_step bts inc hi1 hi2 hc]
    apply Sim.finish
    apply Sim.fold
    by_cases hn : w = []
    · subst hn; exact Sim.rfl' _
    · rw [ws_idem bts inc (by simpa using hi1) (by simpa using hi2) hw hn]
      simp [Sim, hi1, hi2, pushbuffer_nil]

/-- C04: blanks before punctuation do not matter. -/
theorem C04_blanks_before_punctuation (bts : List Str) (fs : Str → Option (List Char)) (n : Nat)
    (pre w post : List Char) (c : Char) (hp : Plain pre) (hm : scanMode pre = .code)
    (hc : IsPunct c) (hw : ∀ c ∈ w, IsWs c) :
    lexDepth bts fs n (pre ++ (w ++ (c :: post))) = lexDepth bts fs n (pre ++ (c :: post)) := by
  cases n with
  | zero => rfl
  | succ n =>
    by_cases hn : w = []
    · subst hn; rfl
    rw [lexDepth_eq_fold, lexDepth_eq_fold]
    simp only [List.foldl_append, List.foldl_cons]
    generalize (includeFile fs (lexDepth bts fs n)) = inc
    obtain ⟨s, hs, hi1, hi2⟩ := code_state bts inc hp hm
    rw [hs, ws_idem bts inc hi1 hi2 hw hn, punct_step bts inc hi1 hi2 hc]
    rw [punct_step bts inc (by split <;> simpa using hi1) (by split <;> simpa using hi2) hc]
    congr 1
    congr 1
    congr 1
    obtain ⟨p, i, ni, b, t⟩ := s
    cases p <;> simp

/-- C04: blanks at the end of the text do not matter. -/
theorem C04_trailing_blanks (bts : List Str) (fs : Str → Option (List Char)) (n : Nat)
    (pre w : List Char) (hp : Plain pre) (hm : scanMode pre = .code) (hw : ∀ c ∈ w, IsWs c) :
    (lexDepth bts fs n (pre ++ w)).tokens = (lexDepth bts fs n pre).tokens := by
  cases n with
  | zero => rfl
  | succ n =>
    by_cases hn : w = []
    · subst hn; simp
    rw [lexDepth_eq_fold, lexDepth_eq_fold]
    simp only [List.foldl_append]
    generalize (includeFile fs (lexDepth bts fs n)) = inc
    obtain ⟨s, hs, hi1, hi2⟩ := code_state bts inc hp hm
    rw [hs, ws_idem bts inc hi1 hi2 hw hn]
    obtain ⟨p, i, ni, b, t⟩ := s
    cases p <;> simp [afinish, afin0, lexFinish, LexRes.tokens]

/-- C04: any text consisting of words, quoted strings and punctuation with any separators
(blanks, commas, comment lines) between them is lexed to the tokens denoted by the pieces;
the separators do not influence the result. -/
theorem C04_tokens_of_layout (bts : List Str) (fs : Str → Option (List Char)) (n : Nat)
    (L : Layout) (trail : List Sep) (hL : L.Ok false) (ht : ∀ s ∈ trail, s.Ok) :
    (lexDepth bts fs (n + 1) (L.text ++ sepText trail)).tokens =
      some (tokensFrom bts none (L.pieces.map Piece.str) ++ [eofTok]) := by
  rw [lexDepth_eq_fold]
  simp only [List.foldl_append]
  obtain ⟨s1, e1, i1, f1⟩ := fold_layout bts (includeFile fs (lexDepth bts fs n))
    (s := LexSt.init) ⟨rfl, rfl, fun _ => rfl⟩ hL (Or.inl rfl)
  obtain ⟨s2, e2, i2, f2, -⟩ := fold_seps bts (includeFile fs (lexDepth bts fs n)) i1 ht
  rw [e1, e2]
  have : s1.flush bts = tokensFrom bts none (L.pieces.map Piece.str) := by
    rw [f1]; simp [LexSt.flush, LexSt.init, pushbuffer]
  rw [afinish_none, lexFinish]
  change some (s2.flush bts ++ [eofTok]) = _
  rw [f2, this]

/-- Layouts exist: `a=1 ,"x y";# end⏎`. -/
example : Layout.Ok false [([], .bare "a".toList), ([], .punct '='), ([.blank ' '], .bare "1".toList),
    ([.blank ' ', .comma], .quoted "x y".toList), ([], .punct ';')] := by
  unfold Layout.Ok Layout.Ok Layout.Ok Layout.Ok Layout.Ok Layout.Ok Piece.Ok Sep.Ok IsWordChar IsWs IsPunct
  refine ⟨by simp, by decide, by simp, by simp, by decide, by simp, ?_⟩
  refine ⟨by simp, by decide, by simp, ?_⟩
  refine ⟨by simp, by decide, by simp, by simp, by decide, by simp, trivial⟩

/-! ### C05 -/

/-- C05: in a text without inclusions every token has the kind that the previous token's
kind and its own text dictate (`kindOf`). -/
theorem C05_kinds_from_context (bts : List Str) (fs : Str → Option (List Char)) (n : Nat)
    (text : List Char) (hgt : ∀ c ∈ text, c ≠ '>') (ts : List Tok) (pw ins ini : Bool)
    (h : lexDepth bts fs (n + 1) text = .ok ts pw ins ini) :
    ∃ us, ts = us ++ [eofTok] ∧ us = tokensFrom bts none (us.map Tok.val) := by
  have h1 := lexDepth_kinded bts fs n hgt
  have h2 := lexDepth_good bts fs (n + 1) text
  rw [h] at h1 h2
  obtain ⟨us, rfl, -⟩ := h2
  refine ⟨us, rfl, ?_⟩
  simpa [KindedRes, Kinded] using h1

/-- C05 for one word: the four-way decision, spelled out. -/
theorem C05_word_kind (bts : List Str) (prev : Option TokTy) (s : Str)
    (hs : ∀ c, IsPunct c → s ≠ [c]) :
    ((gettkn bts s prev).ty = .value ↔ prev = some .equals ∨ prev = some .value) ∧
    ((gettkn bts s prev).ty = .blockname ↔ prev = some .blocktype) ∧
    ((gettkn bts s prev).ty = .blocktype ↔
      s ∈ bts ∧ prev ≠ some .equals ∧ prev ≠ some .value ∧ prev ≠ some .blocktype) ∧
    ((gettkn bts s prev).ty = .name ↔
      s ∉ bts ∧ prev ≠ some .equals ∧ prev ≠ some .value ∧ prev ≠ some .blocktype) ∧
    (gettkn bts s prev).val = s := by
  have h1 := hs '=' (by simp [IsPunct])
  have h2 := hs '(' (by simp [IsPunct])
  have h3 := hs ')' (by simp [IsPunct])
  have h4 := hs '{' (by simp [IsPunct])
  have h5 := hs '}' (by simp [IsPunct])
  have h6 := hs ';' (by simp [IsPunct])
  simp only [gettkn, h1, h2, h3, h4, h5, h6, if_false, isBlockType]
  by_cases hb : s ∈ bts
  · cases prev with
    | none => simp [hb]
    | some p => cases p <;> simp [hb]
  · cases prev with
    | none => simp [hb]
    | some p => cases p <;> simp [hb]

example : ∀ c, IsPunct c → "abc".toList ≠ [c] := by
  rintro c (h | h | h | h | h | h) <;> subst h <;> decide

/-- A documented surprise of the decision: quoting does not protect a single punctuation
character, so `a = "=";` has no value token. -/
theorem C05_quoted_punctuation_is_punctuation (bts : List Str) :
    (lexPlain bts "a = \"=\" ;".toList).tokens.map (List.map Tok.ty) =
      some [if "a".toList ∈ bts then .blocktype else .name, .equals, .equals, .endStatement, .eof] := by
  have h : "a = \"=\" ;".toList = Layout.text [([], .bare "a".toList), ([.blank ' '], .punct '='),
    ([.blank ' '], .quoted "=".toList), ([.blank ' '], .punct ';')] ++ sepText [] := by decide
  rw [lexPlain, h, C04_tokens_of_layout bts _ 0 _ _ _ (by simp)]
  · by_cases hb : "a".toList ∈ bts <;>
      simp [Layout.pieces, Piece.str, tokensFrom, kindOf, eofTok, hb] <;> decide
  · unfold Layout.Ok Layout.Ok Layout.Ok Layout.Ok Layout.Ok Piece.Ok Sep.Ok IsWordChar IsWs IsPunct
    refine ⟨by simp, by decide, by simp, by simp, by decide, by simp, ?_⟩
    exact ⟨by simp, by decide, by simp, by simp, by decide, by simp, trivial⟩

end Softlib
