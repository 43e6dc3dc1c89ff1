/-
Model of the configuration script lexer.

Source: /repo/src/Configuration/Script/Lexer.cpp (all of it) and the parts of
/repo/src/Configuration/Configuration.cpp and
/repo/include/softlib/Configuration/ConfigurationScript.h it uses.

Simplifications (all of them):
* line and character counters (`linecounter`, `charpos`) and the file name stored
  in each token are dropped: they only appear in error messages;
* `ConfigToken::parent/next` are not stored in the token; the only use of the
  parent (the type of the previous token, Lexer.cpp 96-102) is a parameter;
* the file system used by `include_file` is a function from names to contents.
-/
namespace Softlib.Config

/-- `std::string`. -/
abbrev Str := List Char

/-- `conftoken_t`, ConfigurationScript.h 12-25 (`CTKN_INVALID` is never produced). -/
inductive TokTy where
  | name | value | equals | blocktype | blockname | lpar | rpar
  | blockStart | blockEnd | endStatement | eof
  deriving DecidableEq, Repr

/-- `ConfigToken`, ConfigurationScript.h 28-49: type and value. -/
structure Tok where
  ty : TokTy
  val : Str
  deriving DecidableEq, Repr

/-- What `nextc` can do: return 0 (end of text or a NUL byte), return a character, or
spin forever.  The remaining text and the new `prevws` flag are returned as well. -/
inductive NextRes where
  | zero (rest : List Char) (prevws : Bool)
  | char (c : Char) (rest : List Char) (prevws : Bool)
  | diverges
  deriving DecidableEq, Repr

/-- Outcome of the inner comment loop, Lexer.cpp 46-54, *after* `cnfbufferpos--`. -/
inductive CommentRes where
  /-- stopped at `'\n'`; the rest starts with that newline -/
  | newline (rest : List Char)
  /-- stopped at a NUL byte; the rest starts with that byte -/
  | nul (rest : List Char)
  /-- ran into the end of the text; the last character read will be read again -/
  | eof (last : Char)
  deriving DecidableEq, Repr

/-- Inner comment loop, Lexer.cpp 46-54.  `last` is the most recently read character. -/
def skipComment (last : Char) : List Char → CommentRes
  | [] => .eof last
  | c :: r =>
    if c = '\x00' then .nul (c :: r)
    else if c = '\n' then .newline (c :: r)
    else skipComment c r

theorem skipComment_newline_length {last : Char} {r r' : List Char}
    (h : skipComment last r = .newline r') : r'.length ≤ r.length := by
  induction r generalizing last with
  | nil => simp [skipComment] at h
  | cons c r ih =>
    simp only [skipComment] at h
    split at h
    · cases h
    · split at h
      · cases h; simp
      · have := ih h; simp; omega

/-- `ConfigurationScript::nextc`, Lexer.cpp 33-77.  The list is the text from
`cnfbufferpos` on.  A comment that runs into the end of the text makes the last
character be read again (`cnfbufferpos--` at line 54); when that character is `#`
the loop never ends. -/
def nextc (instring prevws : Bool) : List Char → NextRes
  | [] => .zero [] prevws                                   -- line 35
  | c :: rest =>
    if instring then                                        -- line 41
      if c = '\x00' then .zero rest prevws else .char c rest prevws
    else if c = '#' then                                    -- lines 44-56
      match _h : skipComment '#' rest with
      | .newline r' => nextc instring prevws r'
      | .nul r' => .zero r' prevws                          -- `while (c != 0 …)` fails
      | .eof last =>
        if rest = [] then .diverges                         -- reads the `#` again, forever
        else if last = '#' then .diverges
        else if last = '\n' ∨ last = ' ' ∨ last = '\t' then
          if prevws then .zero [] prevws else .char ' ' [] true
        else .char last [] false
    else if c = '\n' ∨ c = ' ' ∨ c = '\t' then              -- lines 57-68
      if prevws then nextc instring prevws rest
      else .char ' ' rest true
    else if c = '\x00' then .zero rest false                -- lines 69-71
    else .char c rest false
  termination_by l => l.length
  decreasing_by
    · have := skipComment_newline_length _h
      simp; omega
    · simp

/-- `Configuration::IsBlockType`, Configuration.cpp 43-50. -/
def isBlockType (blocktypes : List Str) (s : Str) : Bool := blocktypes.contains s

/-- `ConfigurationScript::gettkn`, Lexer.cpp 78-111.  `prev` is the type of the
previous token, `none` for the null pointer. -/
def gettkn (bts : List Str) (s : Str) (prev : Option TokTy) : Tok :=
  if s = ['='] then ⟨.equals, s⟩
  else if s = ['('] then ⟨.lpar, s⟩
  else if s = [')'] then ⟨.rpar, s⟩
  else if s = ['{'] then ⟨.blockStart, s⟩
  else if s = ['}'] then ⟨.blockEnd, s⟩
  else if s = [';'] then ⟨.endStatement, s⟩
  else if prev = some .equals ∨ prev = some .value then ⟨.value, s⟩
  else if prev = some .blocktype then ⟨.blockname, s⟩
  else if isBlockType bts s then ⟨.blocktype, s⟩
  else ⟨.name, s⟩

/-- `ConfigurationScript::pushbuffer`, Lexer.cpp 112-124. -/
def pushbuffer (bts : List Str) (buffer : Str) (tkns : List Tok) : List Tok :=
  if buffer = [] then tkns
  else tkns ++ [gettkn bts buffer (tkns.getLast?.map Tok.ty)]

/-- The mutable state of `Lex` apart from the remaining text. -/
structure LexSt where
  prevws : Bool
  instring : Bool
  ininclude : Bool
  buffer : Str
  tkns : List Tok
  deriving DecidableEq, Repr

/-- `initbuffer` (Lexer.cpp 18-27) together with the empty locals of `Lex`. -/
def LexSt.init : LexSt := ⟨false, false, false, [], []⟩

/-- Outcome of lexing.  `flags` are the values of `prevws`, `instring`, `ininclude`
left behind in the object, which the caller of a nested `Lex` inherits. -/
inductive LexRes where
  | ok (tkns : List Tok) (prevws instring ininclude : Bool)
  /-- `ConfigurationException` because an included file cannot be opened -/
  | throw
  /-- never returns -/
  | diverges
  /-- the allowed nesting of included files is exhausted (model device) -/
  | tooDeep
  deriving DecidableEq, Repr

/-- What the body of the `while` loop of `Lex` (Lexer.cpp 190-238) does with a character. -/
inductive StepRes where
  | next (s : LexSt)
  | stop (r : LexRes)
  deriving DecidableEq, Repr

/-- The end-of-file token, Lexer.cpp 245-248. -/
def eofTok : Tok := ⟨.eof, "<EOF>".toList⟩

/-- Body of the `while` loop of `Lex`, Lexer.cpp 191-237.  `inc` is `include_file`
(134-177) seen as a function from the file name to the outcome of the nested `Lex`. -/
def lexStep (bts : List Str) (inc : Str → LexRes) (s : LexSt) (c : Char) : StepRes :=
  if s.instring ∧ c ≠ '"' then .next { s with buffer := s.buffer ++ [c] }
  else if s.ininclude ∧ c ≠ '>' then .next { s with buffer := s.buffer ++ [c] }
  else if c = '"' then
    .next { s with tkns := pushbuffer bts s.buffer s.tkns, buffer := [], instring := !s.instring }
  else if c = '<' then
    .next { s with tkns := pushbuffer bts s.buffer s.tkns, buffer := [], ininclude := true }
  else if c = '>' then
    match inc s.buffer with
    -- include_file restores the buffer and counters but not `prevws`, `instring`,
    -- `ininclude`; the final token (EOF) is removed by `pop_back`
    | .ok t pw ins ini =>
      .next { prevws := pw, instring := ins, ininclude := ini,
              tkns := s.tkns ++ t.dropLast, buffer := [] }
    | r => .stop r
  else if c = '=' ∨ c = '(' ∨ c = ')' ∨ c = '{' ∨ c = '}' ∨ c = ';' then
    .next { s with tkns := pushbuffer bts [c] (pushbuffer bts s.buffer s.tkns), buffer := [] }
  else if c = ',' ∨ c = ' ' then
    .next { s with tkns := pushbuffer bts s.buffer s.tkns, buffer := [] }
  else .next { s with buffer := s.buffer ++ [c] }

/-- After the loop, Lexer.cpp 240-250. -/
def lexFinish (bts : List Str) (s : LexSt) : LexRes :=
  .ok (pushbuffer bts s.buffer s.tkns ++ [eofTok]) s.prevws s.instring s.ininclude

theorem nextc_char_length {i p : Bool} {l : List Char} {c : Char} {r : List Char} {p' : Bool}
    (h : nextc i p l = .char c r p') : r.length < l.length := by
  fun_induction nextc i p l with
  | case4 _ _ _ hs ih =>
    have := skipComment_newline_length hs
    have := ih h
    simp; omega
  | case11 _ _ _ _ _ _ ih =>
    have := ih h
    simp; omega
  | _ =>
    simp_all
    try (obtain ⟨_, h, _⟩ := h; rw [← h]; simp)

/-- The `while` loop of `Lex`, Lexer.cpp 190-250. -/
def lexLoop (bts : List Str) (inc : Str → LexRes) (s : LexSt) (text : List Char) : LexRes :=
  match _h : nextc s.instring s.prevws text with
  | .diverges => .diverges
  | .zero _ pw => lexFinish bts { s with prevws := pw }
  | .char c rest pw =>
    match lexStep bts inc { s with prevws := pw } c with
    | .stop r => r
    | .next s' => lexLoop bts inc s' rest
  termination_by text.length
  decreasing_by exact nextc_char_length _h

/-- `include_file`, Lexer.cpp 134-177: throws when the file cannot be opened (140-145),
otherwise lexes its contents with `lex`. -/
def includeFile (fs : Str → Option (List Char)) (lex : List Char → LexRes) (name : Str) : LexRes :=
  match fs name with
  | none => .throw
  | some contents => lex contents

/-- `Lex` with at most `depth` levels of included files; `fs` is the file system.
-/
def lexDepth (bts : List Str) (fs : Str → Option (List Char)) : Nat → List Char → LexRes
  | 0, _ => .tooDeep
  | n + 1, text =>
    lexLoop bts (includeFile fs (lexDepth bts fs n)) LexSt.init text

/-- `Lex` on a text without usable included files: every `<…>` fails to open. -/
def lexPlain (bts : List Str) (text : List Char) : LexRes :=
  lexDepth bts (fun _ => none) 1 text

end Softlib.Config
