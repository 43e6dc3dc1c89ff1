/-
Settings and blocks of a configuration as objects that callers hold pointers to.

Source: /repo/src/Configuration/ConfigBlock.cpp 13-45 (constructors, destructor), 54-88 (`AddSetting`,
`AddSubBlock`), 127-134 (`GetConfigBlock`), 164-173 (`GetSetting`), 205-228 (`HasSetting`,
`HasSubBlock`), 311-363 (`Merge`, `MergeSetting`); /repo/src/Configuration/Script/SettingScript.cpp
15-25, 40-42 (`Copy`), 130-132 (`OverwriteValues`).

HeapModel has trees with identities; here the store is flat, so that any pointer can be given to any
function, as a caller can do.  Addresses are handed out by a counter.  Following a pointer to an
object that is not live, or deleting it, is undefined behaviour.  `Merge`, the copy constructor and the
destructor recurse along the pointers; `deep` stands for more nested calls than allowed for.  Only
settings of scripts are modelled.
-/
import Verif.Config.MergeModel

namespace Softlib.Config.Ptr

/-- Outcome of a call. -/
inductive R (α : Type) where
  | ub
  | deep
  | ok (a : α)

def R.bind {α β : Type} : R α → (α → R β) → R β
  | .ub, _ => .ub
  | .deep, _ => .deep
  | .ok a, k => k a

/-- A setting object. -/
structure PSet where
  name : Str
  vals : List Str
  touched : Bool

/-- A block object (Configuration.h 76-82). -/
structure PBlk where
  ty : Nat
  name : Str
  sec : Str
  parent : Option Nat
  sets : List Nat
  subs : List Nat

/-- The live objects. -/
structure PSt where
  set : Nat → Option PSet
  blk : Nat → Option PBlk
  next : Nat

/-- Follow a pointer to a setting. -/
def PSt.getSet (st : PSt) (a : Nat) : R PSet :=
  match st.set a with
  | some s => .ok s
  | none => .ub

/-- Follow a pointer to a block. -/
def PSt.getBlk (st : PSt) (a : Nat) : R PBlk :=
  match st.blk a with
  | some b => .ok b
  | none => .ub

def PSt.putSet (st : PSt) (a : Nat) (s : PSet) : PSt :=
  { st with set := fun x => if x = a then some s else st.set x }

def PSt.putBlk (st : PSt) (a : Nat) (b : PBlk) : PSt :=
  { st with blk := fun x => if x = a then some b else st.blk x }

def PSt.delSet (st : PSt) (a : Nat) : PSt :=
  { st with set := fun x => if x = a then none else st.set x }

def PSt.delBlk (st : PSt) (a : Nat) : PSt :=
  { st with blk := fun x => if x = a then none else st.blk x }

/-- `new SettingScript(name, values)`, SettingScript.cpp 16-23. -/
def newSet (st : PSt) (n : Str) (vs : List Str) : Nat × PSt :=
  (st.next, { (st.putSet st.next ⟨n, vs, false⟩) with next := st.next + 1 })

/-- `new ConfigBlock(type, name, secondary_type, parent)`, ConfigBlock.cpp 30-35. -/
def newBlk (st : PSt) (b : PBlk) : Nat × PSt :=
  (st.next, { (st.putBlk st.next b) with next := st.next + 1 })

/-- The loop of `HasSetting` (205-212), `GetSetting` (164-173) and `MergeSetting` (357-362): every
pointer up to the first setting of the name is followed. -/
def findSet (st : PSt) (n : Str) : List Nat → R (Option Nat)
  | [] => .ok none
  | a :: as =>
    (st.getSet a).bind fun s => if s.name = n then .ok (some a) else findSet st n as

/-- The loop of `HasSubBlock` (221-228) and `GetConfigBlock` (127-134). -/
def findBlk (st : PSt) (t : Nat) (n : Str) : List Nat → R (Option Nat)
  | [] => .ok none
  | a :: as =>
    (st.getBlk a).bind fun c => if c.ty = t ∧ c.name = n then .ok (some a) else findBlk st t n as

/-- `GetSetting`, ConfigBlock.cpp 164-173: the setting found is marked. -/
def getSetting (st : PSt) (b : Nat) (n : Str) : R (Option Nat × PSt) :=
  (st.getBlk b).bind fun pb =>
  (findSet st n pb.sets).bind fun
    | none => .ok (none, st)
    | some a => (st.getSet a).bind fun s => .ok (some a, st.putSet a { s with touched := true })

/-- `GetConfigBlock`, ConfigBlock.cpp 127-134. -/
def getConfigBlock (st : PSt) (b t : Nat) (n : Str) : R (Option Nat) :=
  (st.getBlk b).bind fun pb => findBlk st t n pb.subs

/-- `AddSetting`, ConfigBlock.cpp 54-67: a setting of the same name is marked (by `GetSetting`, line 57)
and takes over the values, then the given setting is deleted; otherwise the pointer is stored. -/
def addSetting (st : PSt) (b a : Nat) : R (Nat × PSt) :=
  (st.getSet a).bind fun s =>
  (st.getBlk b).bind fun pb =>
  (findSet st s.name pb.sets).bind fun
    | some t => (st.getSet t).bind fun old =>
      .ok (t, (st.putSet t { old with vals := s.vals, touched := true }).delSet a)
    | none => .ok (a, st.putBlk b { pb with sets := pb.sets ++ [a] })

/-- `AddSubBlock(ConfigBlock*)`, ConfigBlock.cpp 81-88. -/
def addSubBlock (st : PSt) (b c : Nat) : R (Nat × PSt) :=
  (st.getBlk c).bind fun pc =>
  (st.getBlk b).bind fun pb =>
  (findBlk st pc.ty pc.name pb.subs).bind fun
    | some d => .ok (d, st)
    | none => .ok (c, st.putBlk b { pb with subs := pb.subs ++ [c] })

/-- `AddSubBlock(type, name, secondary)`, ConfigBlock.cpp 73-75. -/
def addNewBlock (st : PSt) (b t : Nat) (n sec : Str) : R (Nat × PSt) :=
  let r := newBlk st ⟨t, n, sec, some b, [], []⟩
  addSubBlock r.2 b r.1

/-- `MergeSetting` for a setting that exists, ConfigBlock.cpp 356-363, and line 322 for one that does
not. -/
def mergeSet (an : Bool) (b : Nat) (st : PSt) (a : Nat) : R PSt :=
  (st.getSet a).bind fun s =>
  (st.getBlk b).bind fun pb =>
  (findSet st s.name pb.sets).bind fun
    | some t => (st.getSet t).bind fun old => .ok (st.putSet t { old with vals := s.vals })
    | none => if an = true then .ok (st.putBlk b { pb with sets := pb.sets ++ [a] }) else .ok st

/-- The first loop of `Merge`, ConfigBlock.cpp 318-327. -/
def mergeSets (an : Bool) (b : Nat) : List Nat → PSt → R PSt
  | [], st => .ok st
  | a :: as, st => (mergeSet an b st a).bind fun st' => mergeSets an b as st'

/-- Copies of the settings, ConfigBlock.cpp 26-28: the values, not the mark. -/
def copySets : List Nat → PSt → R (List Nat × PSt)
  | [], st => .ok ([], st)
  | a :: as, st =>
    (st.getSet a).bind fun s =>
    let r := newSet st s.name s.vals
    (copySets as r.2).bind fun q => .ok (r.1 :: q.1, q.2)

/-- Copies of the sub-blocks, ConfigBlock.cpp 21-23, with the copy constructor given. -/
def copySubs (cp : PSt → Nat → R (Nat × PSt)) : List Nat → PSt → R (List Nat × PSt)
  | [], st => .ok ([], st)
  | c :: cs, st =>
    (cp st c).bind fun r => (copySubs cp cs r.2).bind fun q => .ok (r.1 :: q.1, q.2)

/-- The copy constructor, ConfigBlock.cpp 14-29. -/
def copyBlk : Nat → PSt → Nat → R (Nat × PSt)
  | 0, _, _ => .deep
  | f + 1, st, b =>
    (st.getBlk b).bind fun pb =>
    (copySubs (copyBlk f) pb.subs st).bind fun r =>
    (copySets pb.sets r.2).bind fun q =>
    .ok (newBlk q.2 ⟨pb.ty, pb.name, if pb.sec = [] then pb.name else pb.sec, pb.parent, q.1, r.1⟩)

/-- One sub-block in the second loop of `Merge`, ConfigBlock.cpp 332-352. -/
def mergeSub (an : Bool) (cp : PSt → Nat → R (Nat × PSt)) (mg : PSt → Nat → Nat → R PSt)
    (b : Nat) (st : PSt) (c : Nat) : R PSt :=
  (st.getBlk c).bind fun pc =>
  (st.getBlk b).bind fun pb =>
  (findBlk st pc.ty pc.name pb.subs).bind fun
    | some d => mg st c d
    | none =>
      if an = true then
        (cp st c).bind fun r => (addSubBlock r.2 b r.1).bind fun q => .ok q.2
      else .ok st

/-- The second loop of `Merge`, ConfigBlock.cpp 332-352. -/
def mergeSubs (an : Bool) (cp : PSt → Nat → R (Nat × PSt)) (mg : PSt → Nat → Nat → R PSt)
    (b : Nat) : List Nat → PSt → R PSt
  | [], st => .ok st
  | c :: cs, st => (mergeSub an cp mg b st c).bind fun st' => mergeSubs an cp mg b cs st'

/-- `b->Merge(cb, allowNew)`, ConfigBlock.cpp 311-355; the lists of `cb` are copied before each loop. -/
def merge (an : Bool) : Nat → PSt → (cb b : Nat) → R PSt
  | 0, _, _, _ => .deep
  | f + 1, st, cb, b =>
    (st.getBlk cb).bind fun pc =>
    (mergeSets an b pc.sets st).bind fun st1 =>
    (st1.getBlk cb).bind fun pc1 =>
    mergeSubs an (copyBlk f) (merge an f) b pc1.subs st1

/-- `delete` of settings, ConfigBlock.cpp 38-40. -/
def delSets : List Nat → PSt → R PSt
  | [], st => .ok st
  | a :: as, st => (st.getSet a).bind fun _ => delSets as (st.delSet a)

/-- `delete` of blocks with the destructor given, ConfigBlock.cpp 42-44. -/
def delSubs (dl : PSt → Nat → R PSt) : List Nat → PSt → R PSt
  | [], st => .ok st
  | c :: cs, st => (dl st c).bind fun st' => delSubs dl cs st'

/-- `delete b`, ConfigBlock.cpp 36-45: the settings, the sub-blocks, then the memory of the block. -/
def destroy : Nat → PSt → Nat → R PSt
  | 0, _, _ => .deep
  | f + 1, st, b =>
    (st.getBlk b).bind fun pb =>
    (delSets pb.sets st).bind fun st1 =>
    (delSubs (destroy f) pb.subs st1).bind fun st2 =>
    (st2.getBlk b).bind fun _ => .ok (st2.delBlk b)

/-- What a caller can do with pointers it holds. -/
inductive Op where
  | newSet (n : Str) (vs : List Str)
  | newBlk (t : Nat) (n sec : Str) (parent : Option Nat)
  | get (b : Nat) (n : Str)
  | getBlk (b t : Nat) (n : Str)
  | addSet (b a : Nat)
  | addSub (b c : Nat)
  | addNew (b t : Nat) (n sec : Str)
  | copy (depth b : Nat)
  | merge (depth : Nat) (an : Bool) (cb b : Nat)
  | destroy (depth b : Nat)

/-- The state after a call. -/
def step (st : PSt) : Op → R PSt
  | .newSet n vs => .ok (newSet st n vs).2
  | .newBlk t n sec p => .ok (newBlk st ⟨t, n, sec, p, [], []⟩).2
  | .get b n => (getSetting st b n).bind fun r => .ok r.2
  | .getBlk b t n => (getConfigBlock st b t n).bind fun _ => .ok st
  | .addSet b a => (addSetting st b a).bind fun r => .ok r.2
  | .addSub b c => (addSubBlock st b c).bind fun r => .ok r.2
  | .addNew b t n sec => (addNewBlock st b t n sec).bind fun r => .ok r.2
  | .copy d b => (copyBlk d st b).bind fun r => .ok r.2
  | .merge d an cb b => Ptr.merge an d st cb b
  | .destroy d b => Ptr.destroy d st b

end Softlib.Config.Ptr
