/-
Model of the ways to load a configuration script: `FromFile`, `FromStdin` and `FromString`.

Source: /repo/src/Configuration/Script/ConfigurationScript.cpp (all of it),
/repo/src/Configuration/Configuration.cpp 25-34, Configuration.h 168-197.

The file system is a function from names to contents (`none`: cannot be opened).  `cin` is the text
that is still to be read and its flag `eofbit`; a read error that sets another flag, on which
`FromStdin` loops forever, is not modelled.  `realloc` does not fail.  Objects that are not used any
more (tokens after an exception, replaced root blocks) are never deleted by the code; memory is not
modelled here.
-/
import Verif.Config.ErrModel

namespace Softlib.Config

/-- The members of a `ConfigurationScript` that survive a load. -/
structure Conf where
  filename : Str
  file : Str
  root : Block
  reg : Registry
  err : Bool

/-- How a load ends. -/
inductive Outcome where
  | ok | threw | ub | diverges | tooDeep
  deriving DecidableEq, Repr

/-- `Configuration::Configuration()`, Configuration.cpp 25-28. -/
def Conf.fresh (reg : Registry) : Conf := ⟨[], [], Block.fresh 0 "<root>".toList [], reg, false⟩

/-- `FromString` from line 73 on, given what the lexer did.  An exception of the lexer leaves
`filename` as it was when thrown (Lexer.cpp 149, not restored at 175); an exception of the
interpreter leaves the error flag as it was when thrown. -/
def Conf.afterLex (c : Conf) (src : Str) : LexResP → Outcome × Conf
  | .throw _ _ f _ => (.threw, { c with file := src, filename := f })
  | .diverges => (.diverges, c)
  | .tooDeep => (.tooDeep, c)
  | .ok pts _ _ _ =>
    match interpretL c.reg c.err (pts.map PTok.tok) with
    | .ub => (.ub, c)
    | .thrown _ log => (.threw, { c with file := src, err := c.err || !log.isEmpty })
    | .ok root e _ => (.ok, { c with file := src, root := root, err := e })

/-- `FromString(config, src)`, ConfigurationScript.cpp 66-80. -/
def Conf.fromString (c : Conf) (fs : Str → Option (List Char)) (depth : Nat) (text : List Char)
    (src : Str) : Outcome × Conf :=
  c.afterLex src (lexDepthP c.reg fs src depth c.filename text)

/-- `FromFile(filename)`, ConfigurationScript.cpp 22-38. -/
def Conf.fromFile (c : Conf) (fs : Str → Option (List Char)) (depth : Nat) (name : Str) :
    Outcome × Conf :=
  if c.filename ≠ [] then (.threw, c)
  else match fs name with
    | none => (.threw, c)
    | some contents => ({ c with filename := name } : Conf).fromString fs depth contents name

/-- `cin`. -/
structure Stdin where
  rest : List Char
  eof : Bool

/-- The loop of `FromStdin`, lines 48-52: 1000 characters at a time; a read that gets less sets
`eofbit`.  The number of allocated bytes is the second component of the result. -/
def stdinLoop (buf rest : List Char) : List Char × Nat :=
  if rest.length < 1000 then (buf ++ rest, buf.length + 1001)
  else stdinLoop (buf ++ rest.take 1000) (rest.drop 1000)
  termination_by rest.length
  decreasing_by rw [List.length_drop]; omega

/-- `FromStdin()`, ConfigurationScript.cpp 43-59: at `eofbit` nothing is allocated and line 54
writes through the null pointer; `string(buf)` ends at the first NUL. -/
def Conf.fromStdin (c : Conf) (fs : Str → Option (List Char)) (depth : Nat) (cin : Stdin) :
    Outcome × Conf × Stdin :=
  if cin.eof then (.ub, c, cin)
  else
    let (buf, size) := stdinLoop [] cin.rest
    if buf.length < size then
      let r := c.fromString fs depth (buf.takeWhile (· ≠ '\x00')) "stdin".toList
      (r.1, r.2, ⟨[], true⟩)
    else (.ub, c, cin)

end Softlib.Config
