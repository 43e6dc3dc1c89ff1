/-
Model of `Setting`, `ConfigBlock` and the block-type registry.

Sources: /repo/src/Configuration/ConfigBlock.cpp, /repo/src/Configuration/Setting.cpp,
/repo/src/Configuration/Configuration.cpp, /repo/include/softlib/Configuration.h.

A block is a tree value.  The `parent` pointer of a block is represented by the path from
the root (see InterpModel), not stored; ownership and parent links after copying and
merging are treated separately in HeapModel.  Only `SettingScript` settings occur here
(the only kind the script interpreter creates).
-/
import Verif.Config.LexModel

namespace Softlib.Config

/-- `Setting` / `SettingScript`: Configuration.h 19-24, ConfigurationScript.h 52-53. -/
structure Setting where
  name : Str
  values : List Str
  touched : Bool
  deriving DecidableEq, Repr

/-- `ConfigBlock`: Configuration.h 76-82. -/
inductive Block where
  | mk (ty : Nat) (name sec : Str) (settings : List Setting) (subs : List Block)
  deriving Repr

namespace Block
def ty : Block → Nat | mk t _ _ _ _ => t
def name : Block → Str | mk _ n _ _ _ => n
/-- the raw `secondary_type` member -/
def sec : Block → Str | mk _ _ s _ _ => s
/-- `GetAllSettings`, ConfigBlock.cpp 93-95 -/
def settings : Block → List Setting | mk _ _ _ s _ => s
/-- `GetAllSubBlocks`, ConfigBlock.cpp 100-102 -/
def subs : Block → List Block | mk _ _ _ _ b => b

/-- `ConfigBlock(type, name, secondary_type, parent)`, ConfigBlock.cpp 30-35. -/
def fresh (ty : Nat) (name sec : Str) : Block := mk ty name sec [] []

/-- `GetSecondaryType`, ConfigBlock.cpp 144-149. -/
def getSecondaryType (b : Block) : Str := if b.sec = [] then b.name else b.sec

/-- `HasSetting`, ConfigBlock.cpp 205-212. -/
def hasSetting (b : Block) (n : Str) : Bool := b.settings.any (fun s => s.name == n)

/-- Apply a function to the first element satisfying a predicate (the `for … return` and
`for … break` loops of ConfigBlock.cpp 164-173 and 356-363). -/
def modifyFirst {α : Type} (p : α → Bool) (f : α → α) : List α → List α
  | [] => []
  | x :: xs => if p x then f x :: xs else x :: modifyFirst p f xs

/-- `GetSetting`, ConfigBlock.cpp 164-173: returns the first match and marks it touched. -/
def getSetting (b : Block) (n : Str) : Option Setting × Block :=
  match b.settings.find? (fun s => s.name == n) with
  | none => (none, b)
  | some s =>
    (some { s with touched := true },
     mk b.ty b.name b.sec
      (modifyFirst (fun s => s.name == n) (fun s => { s with touched := true }) b.settings) b.subs)

/-- `AddSetting`, ConfigBlock.cpp 54-67: an existing setting is fetched with `GetSetting`
(which touches it, line 57) and overwritten; otherwise the new one is appended. -/
def addSetting (b : Block) (set : Setting) : Block :=
  if b.hasSetting set.name then
    mk b.ty b.name b.sec
      (modifyFirst (fun s => s.name == set.name)
        (fun s => { s with values := set.values, touched := true }) b.settings) b.subs
  else mk b.ty b.name b.sec (b.settings ++ [set]) b.subs

/-- `HasTypeAndName`, ConfigBlock.cpp 259-261. -/
def hasTypeAndName (b : Block) (t : Nat) (n : Str) : Bool := b.ty == t && b.name == n

/-- Index of the first sub-block with the given type and name: `GetConfigBlock`,
ConfigBlock.cpp 127-134, and `HasSubBlock`, 221-228. -/
def subIdx? (b : Block) (t : Nat) (n : Str) : Option Nat :=
  b.subs.findIdx? (fun c => c.hasTypeAndName t n)

/-- `AddSubBlock`, ConfigBlock.cpp 73-88: returns the block and the index of the
sub-block that becomes current; an existing one keeps its secondary type. -/
def addSubBlock (b : Block) (t : Nat) (n s : Str) : Block × Nat :=
  match b.subIdx? t n with
  | some i => (b, i)
  | none => (mk b.ty b.name b.sec b.settings (b.subs ++ [fresh t n s]), b.subs.length)

/-- Modify the block reached by following sub-block indices. -/
def modifyAt : List Nat → (Block → Block) → Block → Block
  | [], f, b => f b
  | i :: p, f, b => mk b.ty b.name b.sec b.settings (b.subs.modify i (modifyAt p f))

/-- The block reached by following sub-block indices. -/
def at? : List Nat → Block → Option Block
  | [], b => some b
  | i :: p, b => (b.subs[i]?).bind (at? p)

/-- `GetUntouchedSettings`, ConfigBlock.cpp 188-197. -/
def getUntouchedSettings (b : Block) : List Setting := b.settings.filter (fun s => !s.touched)

/-- `HasUntouchedSettings`, ConfigBlock.cpp 271-278. -/
def hasUntouchedSettings (b : Block) : Bool := b.settings.any (fun s => !s.touched)

/-- `GetAllSubBlocksOfType`, ConfigBlock.cpp 109-118. -/
def getAllSubBlocksOfType (b : Block) (t : Nat) : List Block := b.subs.filter (fun c => c.ty == t)

/-- `HasSubBlocks(type)`, ConfigBlock.cpp 237-244. -/
def hasSubBlocksOfType (b : Block) (t : Nat) : Bool := b.subs.any (fun c => c.ty == t)

end Block

/-- The block-type names of a `Configuration`; the id of a type is its position. -/
abbrev Registry := List Str

/-- `Configuration()`, Configuration.cpp 25-28: registers "/root". -/
def Registry.init : Registry := ["/root".toList]

/-- `RegisterBlockType`, Configuration.cpp 83-90: `none` is the exception. -/
def Registry.register (r : Registry) (n : Str) : Option (Registry × Nat) :=
  if isBlockType r n then none else some (r ++ [n], r.length)

/-- `StringToBlockType`, Configuration.cpp 104-111: 0 when not found. -/
def Registry.stringToBlockType (r : Registry) (n : Str) : Nat :=
  match r.findIdx? (fun x => x == n) with
  | some i => i
  | none => 0

end Softlib.Config
