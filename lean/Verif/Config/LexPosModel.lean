/-
The configuration lexer with source positions.

Source: /repo/src/Configuration/Script/Lexer.cpp (all of it), the classes `ConfigToken`
(/repo/include/softlib/Configuration/ConfigurationScript.h 28-49) and
`ConfigurationException` (/repo/include/softlib/ConfigurationException.h).

This is the lexer of `LexModel` with the members left out there: `linecounter`, `charpos`,
`file` and `filename`.  Counters are natural numbers (`size_t` without wrap-around).
-/
import Verif.Config.LexAuto

namespace Softlib.Config

/-- `ConfigToken` with the position stored in it. -/
structure PTok where
  tok : Tok
  line : Nat
  chr : Nat
  file : Str
  deriving DecidableEq, Repr

/-- Result of `nextc` with the counters left behind. -/
inductive NextResP where
  | zero (rest : List Char) (prevws : Bool) (line chr : Nat)
  | char (c : Char) (rest : List Char) (prevws : Bool) (line chr : Nat)
  | diverges
  deriving DecidableEq, Repr

/-- `nextc`, Lexer.cpp 33-77.  `charpos` counts the characters read by the outer loop only (38);
a newline outside of strings increments `linecounter` and resets `charpos` (58-59). -/
def nextcP (instring prevws : Bool) (line chr : Nat) : List Char → NextResP
  | [] => .zero [] prevws line chr
  | c :: rest =>
    if instring then
      if c = '\x00' then .zero rest prevws line (chr + 1) else .char c rest prevws line (chr + 1)
    else if c = '#' then
      match _h : skipComment '#' rest with
      | .newline r' => nextcP instring prevws line (chr + 1) r'
      | .nul r' => .zero r' prevws line (chr + 1)
      | .eof last =>
        if rest = [] then .diverges
        else if last = '#' then .diverges
        else if last = '\n' ∨ last = ' ' ∨ last = '\t' then
          if prevws then .zero [] prevws line (chr + 2) else .char ' ' [] true line (chr + 2)
        else .char last [] false line (chr + 2)
    else if c = '\n' then
      if prevws then nextcP instring prevws (line + 1) 1 rest
      else .char ' ' rest true (line + 1) 1
    else if c = ' ' ∨ c = '\t' then
      if prevws then nextcP instring prevws line (chr + 1) rest
      else .char ' ' rest true line (chr + 1)
    else if c = '\x00' then .zero rest false line (chr + 1)
    else .char c rest false line (chr + 1)
  termination_by l => l.length
  decreasing_by
    · have := skipComment_newline_length _h
      simp; omega
    · simp
    · simp

/-- Forget the counters. -/
def NextResP.erase : NextResP → NextRes
  | .zero r p _ _ => .zero r p
  | .char c r p _ _ => .char c r p
  | .diverges => .diverges

/-- State of `Lex` with the counters. -/
structure LexStP where
  prevws : Bool
  instring : Bool
  ininclude : Bool
  buffer : Str
  tkns : List PTok
  line : Nat
  chr : Nat
  deriving DecidableEq, Repr

/-- `initbuffer`, Lexer.cpp 18-27. -/
def LexStP.init : LexStP := ⟨false, false, false, [], [], 1, 1⟩

/-- `pushbuffer` and `gettkn`, Lexer.cpp 78-124: every token gets the counters as they are
after the character that ends it, and the member `file`. -/
def pushbufferP (bts : List Str) (file : Str) (s : LexStP) (buffer : Str) (tkns : List PTok) :
    List PTok :=
  if buffer = [] then tkns
  else tkns ++ [⟨gettkn bts buffer (tkns.getLast?.map fun t => t.tok.ty), s.line, s.chr, file⟩]

/-- Outcome of lexing with positions. -/
inductive LexResP where
  | ok (tkns : List PTok) (prevws instring ininclude : Bool)
  /-- position and file named in the exception of Lexer.cpp 140-145, and the missing file -/
  | throw (line chr : Nat) (file missing : Str)
  | diverges
  | tooDeep
  deriving DecidableEq, Repr

inductive StepResP where
  | next (s : LexStP)
  | stop (r : LexResP)
  deriving DecidableEq, Repr

/-- Body of the loop of `Lex`, Lexer.cpp 191-237.  `inc` gets the counters in force, which
`include_file` restores (169-170). -/
def lexStepP (bts : List Str) (file : Str) (inc : Nat → Nat → Str → LexResP) (s : LexStP)
    (c : Char) : StepResP :=
  if s.instring ∧ c ≠ '"' then .next { s with buffer := s.buffer ++ [c] }
  else if s.ininclude ∧ c ≠ '>' then .next { s with buffer := s.buffer ++ [c] }
  else if c = '"' then
    .next { s with tkns := pushbufferP bts file s s.buffer s.tkns, buffer := [],
                   instring := !s.instring }
  else if c = '<' then
    .next { s with tkns := pushbufferP bts file s s.buffer s.tkns, buffer := [],
                   ininclude := true }
  else if c = '>' then
    match inc s.line s.chr s.buffer with
    | .ok t pw ins ini =>
      .next { s with prevws := pw, instring := ins, ininclude := ini,
                     tkns := s.tkns ++ t.dropLast, buffer := [] }
    | r => .stop r
  else if c = '=' ∨ c = '(' ∨ c = ')' ∨ c = '{' ∨ c = '}' ∨ c = ';' then
    .next { s with tkns := pushbufferP bts file s [c] (pushbufferP bts file s s.buffer s.tkns),
                   buffer := [] }
  else if c = ',' ∨ c = ' ' then
    .next { s with tkns := pushbufferP bts file s s.buffer s.tkns, buffer := [] }
  else .next { s with buffer := s.buffer ++ [c] }

/-- After the loop, Lexer.cpp 240-250. -/
def lexFinishP (bts : List Str) (file : Str) (s : LexStP) : LexResP :=
  .ok (pushbufferP bts file s s.buffer s.tkns ++ [⟨eofTok, s.line, s.chr, file⟩])
    s.prevws s.instring s.ininclude

theorem nextcP_erase (i p : Bool) (line chr : Nat) (l : List Char) :
    (nextcP i p line chr l).erase = nextc i p l := by
  fun_induction nextcP i p line chr l with
  | case1 => simp [NextResP.erase, nextc]
  | _ => rw [nextc_cons]; simp_all [NextResP.erase]

theorem nextcP_char_length {i p : Bool} {l : List Char} {c : Char} {r : List Char} {p' : Bool}
    {line chr line' chr' : Nat} (h : nextcP i p line chr l = .char c r p' line' chr') :
    r.length < l.length := by
  have := nextcP_erase i p line chr l
  rw [h] at this
  exact nextc_char_length this.symm

/-- The `while` loop of `Lex`, Lexer.cpp 190-250. -/
def lexLoopP (bts : List Str) (file : Str) (inc : Nat → Nat → Str → LexResP) (s : LexStP)
    (text : List Char) : LexResP :=
  match _h : nextcP s.instring s.prevws s.line s.chr text with
  | .diverges => .diverges
  | .zero _ pw l k => lexFinishP bts file { s with prevws := pw, line := l, chr := k }
  | .char c rest pw l k =>
    match lexStepP bts file inc { s with prevws := pw, line := l, chr := k } c with
    | .stop r => r
    | .next s' => lexLoopP bts file inc s' rest
  termination_by text.length
  decreasing_by exact nextcP_char_length _h

/-- `include_file`, Lexer.cpp 134-177.  `filename` is the name given in the exception and the
new value during the nested `Lex`; `file`, the name stored in tokens, is not changed. -/
def includeFileP (fs : Str → Option (List Char)) (lex : Str → List Char → LexResP)
    (filename : Str) (line chr : Nat) (name : Str) : LexResP :=
  match fs name with
  | none => .throw line chr filename name
  | some contents => lex name contents

/-- `Lex` with at most `depth` levels of included files. -/
def lexDepthP (bts : List Str) (fs : Str → Option (List Char)) (file : Str) :
    Nat → Str → List Char → LexResP
  | 0, _, _ => .tooDeep
  | n + 1, filename, text =>
    lexLoopP bts file (includeFileP fs (lexDepthP bts fs file n) filename) LexStP.init text

/-! ### The positions do not influence the tokens -/

def LexStP.erase (s : LexStP) : LexSt :=
  ⟨s.prevws, s.instring, s.ininclude, s.buffer, s.tkns.map PTok.tok⟩

def LexResP.erase : LexResP → LexRes
  | .ok t a b c => .ok (t.map PTok.tok) a b c
  | .throw .. => .throw
  | .diverges => .diverges
  | .tooDeep => .tooDeep

def StepResP.erase : StepResP → StepRes
  | .next s => .next s.erase
  | .stop r => .stop r.erase

theorem pushbufferP_erase (bts : List Str) (file : Str) (s : LexStP) (b : Str) (ts : List PTok) :
    (pushbufferP bts file s b ts).map PTok.tok = pushbuffer bts b (ts.map PTok.tok) := by
  unfold pushbufferP pushbuffer
  split
  · rfl
  · rw [List.map_append, List.map_cons, List.map_nil, List.getLast?_map, Option.map_map]
    rfl

theorem lexStepP_erase (bts : List Str) (file : Str) (incP : Nat → Nat → Str → LexResP)
    (inc : Str → LexRes) (hinc : ∀ l k n, (incP l k n).erase = inc n) (s : LexStP) (c : Char) :
    (lexStepP bts file incP s c).erase = lexStep bts inc s.erase c := by
  obtain ⟨pw, ins, ini, b, ts, l, k⟩ := s
  simp only [lexStepP, lexStep, LexStP.erase]
  by_cases h1 : ins = true ∧ c ≠ '"'
  · simp [h1, StepResP.erase, LexStP.erase]
  simp only [h1, if_false]
  by_cases h2 : ini = true ∧ c ≠ '>'
  · simp [h2, StepResP.erase, LexStP.erase]
  simp only [h2, if_false]
  by_cases h3 : c = '"'
  · simp [h3, StepResP.erase, LexStP.erase, pushbufferP_erase]
  simp only [h3, if_false]
  by_cases h4 : c = '<'
  · simp [h4, StepResP.erase, LexStP.erase, pushbufferP_erase]
  simp only [h4, if_false]
  by_cases h5 : c = '>'
  · simp only [h5, if_true]
    rw [← hinc l k b]
    cases incP l k b <;> simp [StepResP.erase, LexStP.erase, LexResP.erase, List.map_dropLast]
  simp only [h5, if_false]
  by_cases h6 : c = '=' ∨ c = '(' ∨ c = ')' ∨ c = '{' ∨ c = '}' ∨ c = ';'
  · simp [h6, StepResP.erase, LexStP.erase, pushbufferP_erase]
  simp only [h6, if_false]
  by_cases h7 : c = ',' ∨ c = ' '
  · simp [h7, StepResP.erase, LexStP.erase, pushbufferP_erase]
  simp only [h7, if_false]
  rfl

theorem lexLoopP_erase (bts : List Str) (file : Str) (incP : Nat → Nat → Str → LexResP)
    (inc : Str → LexRes) (hinc : ∀ l k n, (incP l k n).erase = inc n) (s : LexStP)
    (text : List Char) :
    (lexLoopP bts file incP s text).erase = lexLoop bts inc s.erase text := by
  have key : ∀ (s : LexStP) (text : List Char), lexLoop bts inc s.erase text =
      lexCont bts inc s.erase (nextcP s.instring s.prevws s.line s.chr text).erase := by
    intro s text
    rw [lexLoop_eq, nextcP_erase]
    rfl
  fun_induction lexLoopP bts file incP s text with
  | case1 s text h => rw [key, h]; rfl
  | case2 s text r pw l k h =>
    rw [key, h]
    simp [NextResP.erase, lexCont, lexFinishP, lexFinish, LexResP.erase, LexStP.erase,
      pushbufferP_erase]
  | case3 s text c rest pw l k h r hs =>
    have hst := lexStepP_erase bts file incP inc hinc { s with prevws := pw, line := l, chr := k } c
    rw [hs] at hst
    rw [key, h]
    simp only [NextResP.erase, lexCont]
    rw [show ({ s.erase with prevws := pw } : LexSt) =
        ({ s with prevws := pw, line := l, chr := k } : LexStP).erase from rfl, ← hst]
    rfl
  | case4 s text c rest pw l k h s' hs ih =>
    have hst := lexStepP_erase bts file incP inc hinc { s with prevws := pw, line := l, chr := k } c
    rw [hs] at hst
    rw [key, h, ih]
    simp only [NextResP.erase, lexCont]
    rw [show ({ s.erase with prevws := pw } : LexSt) =
        ({ s with prevws := pw, line := l, chr := k } : LexStP).erase from rfl, ← hst]
    rfl

theorem lexDepthP_erase (bts : List Str) (fs : Str → Option (List Char)) (file : Str) (n : Nat)
    (filename : Str) (text : List Char) :
    (lexDepthP bts fs file n filename text).erase = lexDepth bts fs n text := by
  induction n generalizing filename text with
  | zero => rfl
  | succ n ih =>
    unfold lexDepthP lexDepth
    rw [lexLoopP_erase bts file _ (includeFile fs (lexDepth bts fs n))]
    · rfl
    · intro l k name
      unfold includeFileP includeFile
      cases fs name with
      | none => rfl
      | some t => exact ih name t

end Softlib.Config
