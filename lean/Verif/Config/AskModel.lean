/-
Model of the remaining questions that can be asked about a `ConfigBlock`.

Source: /repo/src/Configuration/ConfigBlock.cpp 127-134 (GetConfigBlock), 221-228 (HasSubBlock),
236 (HasSubBlocks), 380-382 (operator==), 391-397 (operator[]);
/repo/src/Configuration/Script/SettingScript.cpp 94 (GetString);
/repo/include/softlib/Configuration.h 42 (the default index).

As in BlockModel blocks are values; the pointer returned by `GetConfigBlock` is represented by
the block it points to.
-/
import Verif.Config.MergeModel

namespace Softlib.Config

/-- What `operator[]` does. -/
inductive IndexRes where
  /-- it returns a text -/
  | value (v : Str)
  /-- it throws `SOFTLibException` (ConfigBlock.cpp 395) -/
  | missing
  /-- `std::out_of_range` of `vector::at` (SettingScript.cpp 94): a setting without values -/
  | outOfRange
  deriving DecidableEq, Repr

namespace Block

/-- `operator[]`, ConfigBlock.cpp 391-397: `GetSetting`, which marks the setting, and then
`GetString()`, SettingScript.cpp 94, of its first value. -/
def index (b : Block) (n : Str) : IndexRes × Block :=
  match b.getSetting n with
  | (none, b') => (.missing, b')
  | (some s, b') =>
    match s.values with
    | [] => (.outOfRange, b')
    | v :: _ => (.value v, b')

/-- `GetConfigBlock`, ConfigBlock.cpp 127-134. -/
def getConfigBlock (b : Block) (t : Nat) (n : Str) : Option Block :=
  b.subs.find? (fun c => c.hasTypeAndName t n)

/-- `HasSubBlock`, ConfigBlock.cpp 221-228. -/
def hasSubBlock (b : Block) (t : Nat) (n : Str) : Bool := b.subs.any (fun c => c.hasTypeAndName t n)

/-- `HasSubBlocks()`, ConfigBlock.cpp 236. -/
def hasSubBlocks (b : Block) : Bool := decide (b.subs.length > 0)

/-- `operator==`, ConfigBlock.cpp 380-382. -/
def eqOp (a b : Block) : Bool := a.hasTypeAndName b.ty b.name

end Block

end Softlib.Config
