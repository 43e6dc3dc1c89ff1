/-
Model of copying and merging blocks, and of reading settings.

Source: /repo/src/Configuration/ConfigBlock.cpp 14-29 (copy constructor), 311-363 (Merge,
MergeSetting), /repo/src/Configuration/Script/SettingScript.cpp 15, 40-42 (Copy), 130-132
(OverwriteValues).

Values only; the sharing of setting objects between source and target, and parent links,
are modelled in HeapModel.  Source and target of a merge are taken to be different objects.
-/
import Verif.Config.BlockModel

namespace Softlib.Config

namespace Block

mutual
/-- `ConfigBlock(const ConfigBlock*)`, ConfigBlock.cpp 14-29.  `GetSecondaryType` is never
empty for a named block, so the copy stores the effective type (line 17); `Copy` of a
setting makes a new, untouched one (SettingScript.cpp 15, 41). -/
def copy : Block → Block
  | mk t n s sets sub =>
    mk t n (if s = [] then n else s) (sets.map (fun x => ⟨x.name, x.values, false⟩)) (copyList sub)
def copyList : List Block → List Block
  | [] => []
  | b :: bs => copy b :: copyList bs
end

/-- `MergeSetting`, ConfigBlock.cpp 356-363. -/
def mergeSetting (b : Block) (s : Setting) : Block :=
  mk b.ty b.name b.sec
    (modifyFirst (fun x => x.name == s.name) (fun x => { x with values := s.values }) b.settings)
    b.subs

/-- Append a name to the list of unknown names (a null pointer at first), lines 324-325. -/
def pushUnknown (u : Option (List Str)) (n : Str) : Option (List Str) :=
  match u with
  | none => some [n]
  | some l => some (l ++ [n])

/-- Join the unknown names of a sub-block, lines 337-345. -/
def joinUnknown (u v : Option (List Str)) : Option (List Str) :=
  match v with
  | none => u
  | some l =>
    match u with
    | none => some l
    | some k => some (k ++ l)

/-- The settings loop of `Merge`, ConfigBlock.cpp 318-327. -/
def mergeSettings (allowNew : Bool) : List Setting → Block × Option (List Str) →
    Block × Option (List Str)
  | [], r => r
  | s :: ss, (b, u) =>
    if b.hasSetting s.name then mergeSettings allowNew ss (b.mergeSetting s, u)
    else if allowNew then mergeSettings allowNew ss (b.addSetting s, u)
    else mergeSettings allowNew ss (b, pushUnknown u s.name)

/-- `AddSubBlock(ConfigBlock*)`, ConfigBlock.cpp 81-88, of a finished block. -/
def addExisting (b c : Block) : Block :=
  match b.subIdx? c.ty c.name with
  | some _ => b
  | none => mk b.ty b.name b.sec b.settings (b.subs ++ [c])

/-- Replace the sub-block at an index. -/
def setSub (b : Block) (i : Nat) (c : Block) : Block :=
  mk b.ty b.name b.sec b.settings (b.subs.set i c)

/-- The sub-block at an index (only used with indices returned by `subIdx?`). -/
def subAt (b : Block) (i : Nat) : Block := (b.subs[i]?).getD b

mutual
/-- `Merge`, ConfigBlock.cpp 311-355: the first argument is the source `cb`. -/
def merge (allowNew : Bool) : Block → Block → Block × Option (List Str)
  | mk _ _ _ sets sub, b => mergeSubs allowNew sub (mergeSettings allowNew sets (b, none))
/-- The sub-block loop of `Merge`, ConfigBlock.cpp 332-352. -/
def mergeSubs (allowNew : Bool) : List Block → Block × Option (List Str) →
    Block × Option (List Str)
  | [], r => r
  | c :: cs, (b, u) =>
    match b.subIdx? c.ty c.name with
    | some i =>
      let r := merge allowNew c (b.subAt i)
      mergeSubs allowNew cs (b.setSub i r.1, joinUnknown u r.2)
    | none =>
      if allowNew then mergeSubs allowNew cs (b.addExisting c.copy, u)
      else mergeSubs allowNew cs (b, pushUnknown u c.name)
end

/-- Operations on one block by its user. -/
inductive BlockOp where
  /-- `AddSetting` -/
  | add (name : Str) (values : List Str)
  /-- `GetSetting` or `operator[]` -/
  | get (name : Str)
  /-- `HasSetting` -/
  | has (name : Str)
  deriving DecidableEq, Repr

/-- Effect of an operation, ConfigBlock.cpp 54-67, 164-173, 205-212, 391-397. -/
def applyOp (b : Block) : BlockOp → Block
  | .add n vs => b.addSetting ⟨n, vs, false⟩
  | .get n => (b.getSetting n).2
  | .has _ => b

/-- A history of operations. -/
def applyOps (b : Block) (ops : List BlockOp) : Block := ops.foldl applyOp b

end Block

/-- A history of registrations: the final registry and the result of each call. -/
def Registry.registerAll : Registry → List Str → Registry × List (Option Nat)
  | r, [] => (r, [])
  | r, n :: ns =>
    match r.register n with
    | none => let q := registerAll r ns; (q.1, none :: q.2)
    | some (r', i) => let q := registerAll r' ns; (q.1, some i :: q.2)

end Softlib.Config
