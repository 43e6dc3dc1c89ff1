/-
A character-by-character reformulation of the lexer (helper for the proofs): the
faithful model `lexLoop` equals a left fold of a one-character transition.
-/
import Verif.Config.LexModel

namespace Softlib.Config

/-- State of the one-character machine: running (possibly inside a comment, in which case
the last character read is remembered) or finished. -/
inductive ASt where
  | run (comment : Option Char) (s : LexSt)
  | done (r : LexRes)

section
variable (bts : List Str) (inc : Str → LexRes)

def feed (s : LexSt) (c : Char) : ASt :=
  match lexStep bts inc s c with
  | .stop r => .done r
  | .next s' => .run none s'

def acode (s : LexSt) (c : Char) : ASt :=
  if s.instring then
    if c = '\x00' then .done (lexFinish bts s) else feed bts inc s c
  else if c = '#' then .run (some '#') s
  else if c = '\n' ∨ c = ' ' ∨ c = '\t' then
    if s.prevws then .run none s else feed bts inc { s with prevws := true } ' '
  else if c = '\x00' then .done (lexFinish bts { s with prevws := false })
  else feed bts inc { s with prevws := false } c

def astep : ASt → Char → ASt
  | .done r, _ => .done r
  | .run none s, c => acode bts inc s c
  | .run (some _) s, c =>
    if c = '\x00' then .done (lexFinish bts s)
    else if c = '\n' then acode bts inc s c
    else .run (some c) s

def afin0 : ASt → LexRes
  | .done r => r
  | .run _ s => lexFinish bts s

def afinish : ASt → LexRes
  | .run (some last) s =>
    if last = '#' then .diverges else afin0 bts (acode bts inc s last)
  | a => afin0 bts a

@[simp] theorem foldl_done (r : LexRes) (l : List Char) :
    l.foldl (astep bts inc) (.done r) = .done r := by
  induction l with
  | nil => rfl
  | cons c l ih => simpa [astep] using ih

theorem fold_comment (s : LexSt) (last : Char) (r : List Char) :
    r.foldl (astep bts inc) (.run (some last) s) =
      match skipComment last r with
      | .newline r' => r'.foldl (astep bts inc) (.run none s)
      | .nul _ => .done (lexFinish bts s)
      | .eof l => .run (some l) s := by
  induction r generalizing last with
  | nil => simp [skipComment]
  | cons c r ih =>
    simp only [skipComment, List.foldl_cons]
    by_cases h0 : c = '\x00'
    · simp [h0, astep]
    · by_cases h1 : c = '\n'
      · simp [h1, astep]
      · simp [h0, h1, astep, ih]

/-- Continuation of `Lex` after `nextc` returned. -/
def lexCont (s : LexSt) : NextRes → LexRes
  | .diverges => .diverges
  | .zero _ pw => lexFinish bts { s with prevws := pw }
  | .char c rest pw =>
    match lexStep bts inc { s with prevws := pw } c with
    | .stop r => r
    | .next s' => lexLoop bts inc s' rest

theorem lexLoop_eq (s : LexSt) (text : List Char) :
    lexLoop bts inc s text = lexCont bts inc s (nextc s.instring s.prevws text) := by
  rw [lexLoop.eq_def]
  split <;> (rename_i h; rw [h]; rfl)

theorem nextc_cons (i p : Bool) (c : Char) (rest : List Char) :
    nextc i p (c :: rest) =
      if i then (if c = '\x00' then .zero rest p else .char c rest p)
      else if c = '#' then
        match skipComment '#' rest with
        | .newline r' => nextc i p r'
        | .nul r' => .zero r' p
        | .eof last =>
          if rest = [] then .diverges
          else if last = '#' then .diverges
          else if last = '\n' ∨ last = ' ' ∨ last = '\t' then
            if p then .zero [] p else .char ' ' [] true
          else .char last [] false
      else if c = '\n' ∨ c = ' ' ∨ c = '\t' then
        if p then nextc i p rest else .char ' ' rest true
      else if c = '\x00' then .zero rest false
      else .char c rest false := by
  rw [nextc.eq_def]
  simp only
  split
  · rfl
  · split
    · split <;> simp_all
    · rfl

theorem skipComment_eof_ne {last : Char} {r : List Char} {l : Char}
    (h : skipComment last r = .eof l) (h0 : last ≠ '\x00') (h1 : last ≠ '\n') :
    l ≠ '\x00' ∧ l ≠ '\n' := by
  induction r generalizing last with
  | nil => simp only [skipComment, CommentRes.eof.injEq] at h; subst h; exact ⟨h0, h1⟩
  | cons c r ih =>
    simp only [skipComment] at h
    split at h
    · cases h
    · split at h
      · cases h
      · exact ih h (by assumption) (by assumption)

theorem lexCont_char (s : LexSt) (c : Char) (rest : List Char) (pw : Bool)
    (ih : ∀ s', lexLoop bts inc s' rest
      = afinish bts inc (rest.foldl (astep bts inc) (.run none s'))) :
    lexCont bts inc s (.char c rest pw) =
      afinish bts inc (rest.foldl (astep bts inc) (feed bts inc { s with prevws := pw } c)) := by
  simp only [lexCont, feed]
  cases lexStep bts inc { s with prevws := pw } c with
  | stop r => simp [afinish, afin0]
  | next s' => simp [ih]

/-- The faithful lexer equals the fold of the one-character machine. -/
theorem lexLoop_eq_fold (s : LexSt) (text : List Char) :
    lexLoop bts inc s text = afinish bts inc (text.foldl (astep bts inc) (.run none s)) := by
  induction hn : text.length using Nat.strongRecOn generalizing s text with
  | ind n IH =>
    cases text with
    | nil => simp [lexLoop_eq, nextc, lexCont, afinish, afin0]
    | cons c rest =>
      have ihr : ∀ s', lexLoop bts inc s' rest
          = afinish bts inc (rest.foldl (astep bts inc) (.run none s')) :=
        fun s' => IH rest.length (by simp at hn; omega) s' rest rfl
      have ihn : ∀ s', lexLoop bts inc s' [] = afinish bts inc
          ([].foldl (astep bts inc) (.run none s')) := by
        intro s'
        simp [lexLoop_eq, nextc, lexCont, afinish, afin0]
      have hfin : ∀ s' c', afinish bts inc (feed bts inc s' c')
          = afin0 bts (feed bts inc s' c') := by
        intro s' c'
        simp only [feed]
        cases lexStep bts inc s' c' <;> simp [afinish]
      rw [lexLoop_eq, nextc_cons]
      simp only [List.foldl_cons, astep, acode]
      obtain ⟨p, i, ni, b, t⟩ := s
      cases i
      · simp only [Bool.false_eq_true, if_false]
        by_cases hc : c = '#'
        · simp only [hc, if_true]
          rw [fold_comment]
          cases hk : skipComment '#' rest with
          | newline r' =>
            have hl := skipComment_newline_length hk
            have := IH r'.length (by simp at hn; omega) ⟨p, false, ni, b, t⟩ r' rfl
            rw [lexLoop_eq] at this
            exact this
          | nul r' => simp [lexCont, afinish, afin0]
          | eof l =>
            by_cases hr : rest = []
            · subst hr
              simp only [skipComment, CommentRes.eof.injEq] at hk
              subst hk
              simp [lexCont, afinish]
            · simp only [hr, if_false, afinish]
              by_cases hl : l = '#'
              · simp [hl, lexCont]
              · have hne := skipComment_eof_ne hk (by decide) (by decide)
                simp only [hl, if_false, acode, hne.1, Bool.false_eq_true]
                by_cases hw : l = '\n' ∨ l = ' ' ∨ l = '\t'
                · simp only [hw, if_true]
                  cases p
                  · have := lexCont_char bts inc ⟨false, false, ni, b, t⟩ ' ' [] true ihn
                    simpa [hfin] using this
                  · simp [lexCont, afin0]
                · simp only [hw, if_false]
                  have := lexCont_char bts inc ⟨p, false, ni, b, t⟩ l [] false ihn
                  simpa [hfin] using this
        · simp only [hc, if_false]
          by_cases hw : c = '\n' ∨ c = ' ' ∨ c = '\t'
          · simp only [hw, if_true]
            cases p
            · simpa using lexCont_char bts inc ⟨false, false, ni, b, t⟩ ' ' rest true ihr
            · have := ihr ⟨true, false, ni, b, t⟩
              rw [lexLoop_eq] at this
              simpa using this
          · simp only [hw, if_false]
            by_cases h0 : c = '\x00'
            · simp [h0, lexCont, afinish, afin0]
            · simpa [h0] using lexCont_char bts inc ⟨p, false, ni, b, t⟩ c rest false ihr
      · by_cases h0 : c = '\x00'
        · simp [h0, lexCont, afinish, afin0]
        · simpa [h0] using lexCont_char bts inc ⟨p, true, ni, b, t⟩ c rest p ihr

end
end Softlib.Config
