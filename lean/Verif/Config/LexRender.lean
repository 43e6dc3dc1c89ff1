/-
Helper lemmas: lexing a laid out sequence of pieces yields the tokens they denote.
-/
import Verif.Config.LexLemmas

namespace Softlib.Config

section
variable (bts : List Str) (inc : Str → LexRes)

theorem gettkn_eq_kindOf (s : Str) (prev : Option TokTy) :
    gettkn bts s prev = ⟨kindOf bts prev s, s⟩ := by
  by_cases h1 : s = ['=']; · subst h1; rfl
  by_cases h2 : s = ['(']; · subst h2; rfl
  by_cases h3 : s = [')']; · subst h3; rfl
  by_cases h4 : s = ['{']; · subst h4; rfl
  by_cases h5 : s = ['}']; · subst h5; rfl
  by_cases h6 : s = [';']; · subst h6; rfl
  have hk : kindOf bts prev s = match prev with
      | some .equals => .value
      | some .value => .value
      | some .blocktype => .blockname
      | _ => if s ∈ bts then .blocktype else .name := by
    unfold kindOf
    split <;> first | contradiction | rfl
  rw [hk]
  simp only [gettkn, h1, h2, h3, h4, h5, h6, if_false, isBlockType]
  cases prev with
  | none => simp; split <;> rfl
  | some p => cases p <;> simp <;> split <;> rfl

theorem pushbuffer_cons {b : Str} (hb : b ≠ []) (ts : List Tok) :
    pushbuffer bts b ts = ts ++ [⟨kindOf bts (ts.getLast?.map Tok.ty) b, b⟩] := by
  simp [pushbuffer, hb, gettkn_eq_kindOf]

@[simp] theorem pushbuffer_nil (ts : List Tok) : pushbuffer bts [] ts = ts := by
  simp [pushbuffer]

/-- Outside strings and inclusions, with nothing pending after a blank. -/
def Idle (s : LexSt) : Prop :=
  s.instring = false ∧ s.ininclude = false ∧ (s.prevws = true → s.buffer = [])

def LexSt.flush (s : LexSt) : List Tok := pushbuffer bts s.buffer s.tkns

theorem fold_blank {s : LexSt} (h : Idle s) {c : Char} (hc : IsWs c) :
    ∃ s', astep bts inc (.run none s) c = .run none s' ∧ Idle s' ∧ s'.buffer = [] ∧
      s'.tkns = s.flush bts := by
  have := ws_idem bts inc (s := s) h.1 h.2.1 (w := [c]) (by simpa using hc) (by simp)
  simp only [List.foldl_cons, List.foldl_nil] at this
  rw [this]
  obtain ⟨p, i, n, b, t⟩ := s
  obtain ⟨h1, h2, h3⟩ := h
  simp only at h1 h2 h3
  subst h1 h2
  cases p
  · exact ⟨_, rfl, by simp [Idle, LexSt.flush]⟩
  · have := h3 rfl
    subst this
    exact ⟨_, rfl, by simp [Idle, LexSt.flush]⟩

theorem fold_sep {s : LexSt} (h : Idle s) {sp : Sep} (hs : sp.Ok) :
    ∃ s', sp.text.foldl (astep bts inc) (.run none s) = .run none s' ∧ Idle s' ∧
      s'.buffer = [] ∧ s'.tkns = s.flush bts := by
  match sp, hs with
  | .blank c, hs => exact fold_blank bts inc h hs
  | .comma, _ =>
    obtain ⟨p, i, n, b, t⟩ := s
    obtain ⟨h1, h2, _⟩ := h
    simp only at h1 h2
    subst h1 h2
    refine ⟨⟨false, false, false, [], pushbuffer bts b t⟩, ?_, ?_⟩
    · simp [Sep.text, astep, acode, feed, lexStep]
    · simp [Idle, LexSt.flush]
  | .comment t, hs =>
    simp only [Sep.text, List.foldl_cons, List.foldl_append, List.foldl_nil]
    have h0 : astep bts inc (.run none s) '#' = .run (some '#') s := by
      simp [astep, acode, h.1]
    rw [h0]
    obtain ⟨l', hl⟩ := fold_in_comment bts inc s '#' hs
    rw [hl]
    have h1 : astep bts inc (.run (some l') s) '\n' = astep bts inc (.run none s) '\n' := by
      simp [astep]
    rw [h1]
    exact fold_blank bts inc h (by simp [IsWs])

theorem fold_seps {s : LexSt} (h : Idle s) {ss : List Sep} (hs : ∀ x ∈ ss, x.Ok) :
    ∃ s', (sepText ss).foldl (astep bts inc) (.run none s) = .run none s' ∧ Idle s' ∧
      s'.flush bts = s.flush bts ∧ (s.buffer = [] ∨ ss ≠ [] → s'.buffer = []) := by
  induction ss generalizing s with
  | nil => exact ⟨s, rfl, h, rfl, by simp⟩
  | cons sp ss ih =>
    obtain ⟨s1, e1, i1, b1, t1⟩ := fold_sep bts inc h (hs sp (by simp))
    obtain ⟨s2, e2, i2, f2, b2⟩ := ih i1 (fun x hx => hs x (by simp [hx]))
    refine ⟨s2, ?_, i2, ?_, fun _ => b2 (Or.inl b1)⟩
    · simp only [sepText, List.flatMap_cons, List.foldl_append]
      rw [e1]; exact e2
    · rw [f2, LexSt.flush, b1, pushbuffer_nil, t1]

theorem fold_word {s : LexSt} (h : Idle s) {w : Str} (hw : ∀ c ∈ w, IsWordChar c) :
    ∃ s', w.foldl (astep bts inc) (.run none s) = .run none s' ∧ Idle s' ∧
      s'.buffer = s.buffer ++ w ∧ s'.tkns = s.tkns := by
  induction w generalizing s with
  | nil => exact ⟨s, rfl, h, by simp, rfl⟩
  | cons c w ih =>
    obtain ⟨hws, hp, hh, hq, hlt, hgt, hcm, h0⟩ := hw c (by simp)
    have hws' : ¬ (c = '\n' ∨ c = ' ' ∨ c = '\t') := hws
    have hsp : ¬ (c = ',' ∨ c = ' ') := by
      rintro (h | h)
      · exact hcm h
      · exact hws (Or.inr (Or.inl h))
    have hp' : ¬ (c = '=' ∨ c = '(' ∨ c = ')' ∨ c = '{' ∨ c = '}' ∨ c = ';') := hp
    obtain ⟨p, i, n, b, t⟩ := s
    obtain ⟨h1, h2, h3⟩ := h
    simp only at h1 h2
    subst h1 h2
    have : astep bts inc (.run none ⟨p, false, false, b, t⟩) c
        = .run none ⟨false, false, false, b ++ [c], t⟩ := by
      simp only [astep, acode, hh, hws', h0, feed, lexStep, hq, hlt, hgt, hp', hsp]
      simp
    rw [List.foldl_cons, this]
    obtain ⟨s', e, i', b', t'⟩ := ih (s := ⟨false, false, false, b ++ [c], t⟩)
      (by simp [Idle]) (fun x hx => hw x (by simp [hx]))
    exact ⟨s', e, i', by simpa using b', t'⟩

theorem fold_quotedChars {s : LexSt} (hs : s.instring = true) {w : Str}
    (hw : ∀ c ∈ w, c ≠ '"' ∧ c ≠ '\x00') :
    w.foldl (astep bts inc) (.run none s) = .run none { s with buffer := s.buffer ++ w } := by
  induction w generalizing s with
  | nil => simp
  | cons c w ih =>
    obtain ⟨hq, h0⟩ := hw c (by simp)
    have : astep bts inc (.run none s) c = .run none { s with buffer := s.buffer ++ [c] } := by
      simp [astep, acode, hs, h0, feed, lexStep, hq]
    rw [List.foldl_cons, this, ih (s := { s with buffer := s.buffer ++ [c] }) hs
      (fun x hx => hw x (by simp [hx]))]
    simp

theorem fold_piece {s : LexSt} (h : Idle s) {p : Piece} (hp : p.Ok)
    (hb : (∃ w, p = .bare w) → s.buffer = []) :
    ∃ s', p.text.foldl (astep bts inc) (.run none s) = .run none s' ∧ Idle s' ∧
      s'.flush bts = s.flush bts ++
        [⟨kindOf bts ((s.flush bts).getLast?.map Tok.ty) p.str, p.str⟩] ∧
      (s'.buffer = [] ∨ ∃ w, p = .bare w) := by
  match p, hp with
  | .bare w, hp =>
    obtain ⟨s', e, i', b', t'⟩ := fold_word bts inc h hp.2
    refine ⟨s', e, i', ?_, Or.inr ⟨w, rfl⟩⟩
    have hb := hb ⟨w, rfl⟩
    simp only [LexSt.flush, b', t', hb, List.nil_append, pushbuffer_nil, Piece.str]
    exact pushbuffer_cons bts hp.1 _
  | .quoted w, hp =>
    obtain ⟨pw, i, n, b, t⟩ := s
    obtain ⟨h1, h2, h3⟩ := h
    simp only at h1 h2
    subst h1 h2
    simp only [Piece.text, List.foldl_cons, List.foldl_append, List.foldl_nil]
    have e1 : astep bts inc (.run none ⟨pw, false, false, b, t⟩) '"'
        = .run none ⟨false, true, false, [], pushbuffer bts b t⟩ := by
      simp [astep, acode, feed, lexStep]
    rw [e1, fold_quotedChars bts inc rfl hp.2]
    refine ⟨⟨false, false, false, [], pushbuffer bts w (pushbuffer bts b t)⟩, ?_, ?_, ?_, Or.inl rfl⟩
    · simp [astep, acode, feed, lexStep]
    · simp [Idle]
    · simp only [LexSt.flush, pushbuffer_nil, Piece.str]
      exact pushbuffer_cons bts hp.1 _
  | .punct c, hp =>
    simp only [Piece.text, List.foldl_cons, List.foldl_nil]
    rw [punct_step bts inc h.1 h.2.1 hp]
    refine ⟨_, rfl, ?_, ?_, Or.inl rfl⟩
    · simp [Idle, h.1, h.2.1]
    · simp only [LexSt.flush, pushbuffer_nil, Piece.str]
      exact pushbuffer_cons bts (by simp) _

theorem fold_layout {s : LexSt} (h : Idle s) {L : Layout} {pb : Bool} (hL : L.Ok pb)
    (hb : s.buffer = [] ∨ pb = true) :
    ∃ s', L.text.foldl (astep bts inc) (.run none s) = .run none s' ∧ Idle s' ∧
      s'.flush bts = s.flush bts ++
        tokensFrom bts ((s.flush bts).getLast?.map Tok.ty) (L.pieces.map Piece.str) := by
  induction L generalizing s pb with
  | nil => exact ⟨s, rfl, h, by simp [Layout.pieces, tokensFrom]⟩
  | cons x L ih =>
    obtain ⟨ss, p⟩ := x
    obtain ⟨h1, h2, h3, h4⟩ := hL
    obtain ⟨s1, e1, i1, f1, b1⟩ := fold_seps bts inc h h1
    obtain ⟨s2, e2, i2, f2, b2⟩ := fold_piece bts inc i1 h2 (by
      intro hw
      apply b1
      rcases hb with hb | hb
      · exact Or.inl hb
      · exact Or.inr (h3 hb hw))
    obtain ⟨s3, e3, i3, f3⟩ := ih i2 h4 (by
      rcases b2 with b2 | ⟨w, rfl⟩
      · exact Or.inl b2
      · exact Or.inr rfl)
    refine ⟨s3, ?_, i3, ?_⟩
    · simp only [Layout.text, List.foldl_append]
      rw [e1, e2]; exact e3
    · rw [f3, f2, f1]
      simp [Layout.pieces, tokensFrom]

end
end Softlib.Config
