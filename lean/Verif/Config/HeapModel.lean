/-
Model of the pointer structure of configuration trees: object identities, parent links,
copying, merging and destruction.

Source: /repo/src/Configuration/ConfigBlock.cpp 14-45 (copy constructor, destructor),
54-88 (AddSetting, AddSubBlock), 311-363 (Merge, MergeSetting);
/repo/src/Configuration/Script/SettingScript.cpp 15, 40-42, 130-132.

Every block and every setting object carries its address (a number handed out by a counter,
so addresses are never reused while a configuration operation runs).  The values and the
`touched` mark of a setting live in a heap, because two blocks may point to the same
setting.  Names and types are immutable in the source and stored in the tree.
-/
import Verif.Config.MergeModel

namespace Softlib.Config

/-- Contents of a setting object: values and `touched` mark. -/
abbrev Heap := Nat → List Str × Bool

/-- The heap and the next free address. -/
structure HSt where
  heap : Heap
  next : Nat

/-- Store into one setting object. -/
def Heap.put (h : Heap) (a : Nat) (v : List Str × Bool) : Heap := fun x => if x = a then v else h x

/-- `ConfigBlock` with identities (Configuration.h 76-82): its address, its parent pointer,
type, name, secondary type, the pointers to its settings (with the settings' names) and its
sub-blocks. -/
inductive HBlock where
  | mk (addr : Nat) (parent : Option Nat) (ty : Nat) (name sec : Str)
      (sets : List (Nat × Str)) (subs : List HBlock)
  deriving Repr

namespace HBlock

def addr : HBlock → Nat | mk a _ _ _ _ _ _ => a
def parent : HBlock → Option Nat | mk _ p _ _ _ _ _ => p
def ty : HBlock → Nat | mk _ _ t _ _ _ _ => t
def name : HBlock → Str | mk _ _ _ n _ _ _ => n
def sec : HBlock → Str | mk _ _ _ _ s _ _ => s
def sets : HBlock → List (Nat × Str) | mk _ _ _ _ _ s _ => s
def subs : HBlock → List HBlock | mk _ _ _ _ _ _ b => b

mutual
/-- The contents of a tree, identities forgotten. -/
def view (h : Heap) : HBlock → Block
  | mk _ _ t n s sets sub => .mk t n s (sets.map (fun x => ⟨x.2, (h x.1).1, (h x.1).2⟩)) (viewList h sub)
def viewList (h : Heap) : List HBlock → List Block
  | [] => []
  | b :: bs => view h b :: viewList h bs
end

mutual
/-- The objects deleted by `delete` of a block, in order: `~ConfigBlock`,
ConfigBlock.cpp 36-45, deletes the settings, then the sub-blocks; the block's own memory is
released last. -/
def deleted : HBlock → List Nat
  | mk a _ _ _ _ sets sub => sets.map Prod.fst ++ deletedList sub ++ [a]
def deletedList : List HBlock → List Nat
  | [] => []
  | b :: bs => deleted b ++ deletedList bs
end

/-- `delete` of a sequence of pointers on a set of live objects; `none` is the undefined
behaviour of deleting an object that is not live. -/
def deleteAll : List Nat → List Nat → Option (List Nat)
  | [], live => some live
  | a :: as, live => if a ∈ live then deleteAll as (live.filter (fun x => x != a)) else none

/-- Copy the setting objects: ConfigBlock.cpp 26-28, SettingScript.cpp 15, 41. -/
def copySets : List (Nat × Str) → HSt → List (Nat × Str) × HSt
  | [], st => ([], st)
  | s :: ss, st =>
    let r := copySets ss ⟨st.heap.put st.next ((st.heap s.1).1, false), st.next + 1⟩
    ((st.next, s.2) :: r.1, r.2)

mutual
/-- `ConfigBlock(const ConfigBlock*)`, ConfigBlock.cpp 14-29: the parent pointer is that of
the original (line 18), also for the copied sub-blocks (line 23). -/
def copy : HBlock → HSt → HBlock × HSt
  | mk _ p t n s sets sub, st =>
    let r := copyList sub ⟨st.heap, st.next + 1⟩
    let q := copySets sets r.2
    (mk st.next p t n (if s = [] then n else s) q.1 r.1, q.2)
def copyList : List HBlock → HSt → List HBlock × HSt
  | [], st => ([], st)
  | b :: bs, st =>
    let r := copy b st
    let q := copyList bs r.2
    (r.1 :: q.1, q.2)
end

/-- The settings loop of `Merge`, ConfigBlock.cpp 318-327, on the target's setting pointers:
an existing setting is overwritten (356-363), a new one is *pushed as the same pointer*
(line 322 with 64). -/
def mergeSets (allowNew : Bool) : List (Nat × Str) → List (Nat × Str) × Heap → List (Nat × Str) × Heap
  | [], r => r
  | s :: ss, (ts, h) =>
    match ts.find? (fun t => t.2 == s.2) with
    | some t => mergeSets allowNew ss (ts, h.put t.1 ((h s.1).1, (h t.1).2))
    | none =>
      if allowNew then mergeSets allowNew ss (ts ++ [s], h) else mergeSets allowNew ss (ts, h)

mutual
/-- `Merge`, ConfigBlock.cpp 311-355; the first block is the source `cb`. -/
def merge (allowNew : Bool) : HBlock → HBlock → HSt → HBlock × HSt
  | mk _ _ _ _ _ sets sub, b, st =>
    let r := mergeSets allowNew sets (b.sets, st.heap)
    let q := mergeSubs allowNew sub b.subs ⟨r.2, st.next⟩
    (mk b.addr b.parent b.ty b.name b.sec r.1 q.1, q.2)
/-- The sub-block loop of `Merge`, ConfigBlock.cpp 332-352 (127-134 and 221-228 look for a
sub-block of the same type and name), on the target's sub-blocks: an
existing one is merged recursively, a new one is copied (347). -/
def mergeSubs (allowNew : Bool) : List HBlock → List HBlock → HSt → List HBlock × HSt
  | [], bs, st => (bs, st)
  | c :: cs, bs, st =>
    match bs.findIdx? (fun d => d.ty == c.ty && d.name == c.name) with
    | some i =>
      match bs[i]? with
      | some d =>
        let r := merge allowNew c d st
        mergeSubs allowNew cs (bs.set i r.1) r.2
      | none => (bs, st)
    | none =>
      if allowNew then
        let r := copy c st
        mergeSubs allowNew cs (bs ++ [r.1]) r.2
      else mergeSubs allowNew cs bs st
end

end HBlock

end Softlib.Config
