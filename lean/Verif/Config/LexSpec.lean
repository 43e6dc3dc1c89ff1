/-
Specification vocabulary for the lexer properties: what a user knows about the
configuration syntax, without reference to how the lexer works.
-/
import Verif.Config.LexModel

namespace Softlib.Config

/-- Where a position of a configuration text lies. -/
inductive Mode where
  | code | comment | string
  deriving DecidableEq, Repr

/-- Reading one more character: `"` toggles strings, `#` starts a comment that the next
newline ends. -/
def Mode.next : Mode → Char → Mode
  | .code, c => if c = '"' then .string else if c = '#' then .comment else .code
  | .comment, c => if c = '\n' then .code else .comment
  | .string, c => if c = '"' then .code else .string

/-- The mode after a text. -/
def scanMode (text : List Char) : Mode := text.foldl Mode.next .code

/-- No file inclusion marks and no NUL byte. -/
def Plain (text : List Char) : Prop := ∀ c ∈ text, c ≠ '<' ∧ c ≠ '>' ∧ c ≠ '\x00'

/-- Blank characters. -/
def IsWs (c : Char) : Prop := c = '\n' ∨ c = ' ' ∨ c = '\t'

/-- Punctuation characters, which are tokens by themselves. -/
def IsPunct (c : Char) : Prop := c = '=' ∨ c = '(' ∨ c = ')' ∨ c = '{' ∨ c = '}' ∨ c = ';'

/-- Ordinary characters, of which unquoted words consist. -/
def IsWordChar (c : Char) : Prop :=
  ¬ IsWs c ∧ ¬ IsPunct c ∧ c ≠ '#' ∧ c ≠ '"' ∧ c ≠ '<' ∧ c ≠ '>' ∧ c ≠ ',' ∧ c ≠ '\x00'

/-- The tokens of a result. -/
def LexRes.tokens : LexRes → Option (List Tok)
  | .ok t _ _ _ => some t
  | _ => none

/-- Forget whether the last character was blank (a flag left behind in the object). -/
def LexRes.erase : LexRes → LexRes
  | .ok t _ i n => .ok t false i n
  | r => r

/-! ### Texts as a sequence of pieces with arbitrary layout -/

/-- A visible piece of a configuration text. -/
inductive Piece where
  | bare (w : Str)
  | quoted (w : Str)
  | punct (c : Char)
  deriving DecidableEq, Repr

/-- How a piece is written. -/
def Piece.text : Piece → Str
  | .bare w => w
  | .quoted w => '"' :: (w ++ ['"'])
  | .punct c => [c]

/-- What a piece denotes. -/
def Piece.str : Piece → Str
  | .bare w => w
  | .quoted w => w
  | .punct c => [c]

def Piece.Ok : Piece → Prop
  | .bare w => w ≠ [] ∧ ∀ c ∈ w, IsWordChar c
  | .quoted w => w ≠ [] ∧ ∀ c ∈ w, c ≠ '"' ∧ c ≠ '\x00'
  | .punct c => IsPunct c

/-- An invisible separator: a blank, a comma, or a comment line. -/
inductive Sep where
  | blank (c : Char)
  | comma
  | comment (text : Str)
  deriving DecidableEq, Repr

def Sep.text : Sep → Str
  | .blank c => [c]
  | .comma => [',']
  | .comment t => '#' :: (t ++ ['\n'])

def Sep.Ok : Sep → Prop
  | .blank c => IsWs c
  | .comma => True
  | .comment t => ∀ c ∈ t, c ≠ '\n' ∧ c ≠ '\x00'

/-- Text of a list of separators. -/
def sepText (l : List Sep) : Str := l.flatMap Sep.text

/-- A laid out text: each piece preceded by separators. -/
abbrev Layout := List (List Sep × Piece)

def Layout.text : Layout → Str
  | [] => []
  | (ss, p) :: l => sepText ss ++ (p.text ++ Layout.text l)

def Layout.pieces (l : Layout) : List Piece := l.map Prod.snd

/-- Two unquoted words need a separator between them; all parts are well formed. -/
def Layout.Ok (prevBare : Bool) : Layout → Prop
  | [] => True
  | (ss, p) :: l =>
    (∀ s ∈ ss, s.Ok) ∧ p.Ok ∧
    (prevBare = true → (∃ w, p = .bare w) → ss ≠ []) ∧
    Layout.Ok (match p with | .bare _ => true | _ => false) l

/-- Kind of a word from its context: value after `=` or a value, block name after a block
type, block type if registered, setting name otherwise; punctuation stands for itself. -/
def kindOf (bts : List Str) (prev : Option TokTy) (s : Str) : TokTy :=
  match s with
  | ['='] => .equals
  | ['('] => .lpar
  | [')'] => .rpar
  | ['{'] => .blockStart
  | ['}'] => .blockEnd
  | [';'] => .endStatement
  | _ =>
    match prev with
    | some .equals => .value
    | some .value => .value
    | some .blocktype => .blockname
    | _ => if s ∈ bts then .blocktype else .name

/-- The tokens denoted by a sequence of words after a token of kind `prev`. -/
def tokensFrom (bts : List Str) : Option TokTy → List Str → List Tok
  | _, [] => []
  | prev, s :: l => ⟨kindOf bts prev s, s⟩ :: tokensFrom bts (some (kindOf bts prev s)) l

end Softlib.Config
