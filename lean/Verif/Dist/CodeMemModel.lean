/-
Who owns the arrays of CODE and GO+CODE distribution functions.

Source: /repo/src/DistributionFunction/CODEDistributionFunction.cpp 32-38 (constructors), 43-52
(destructor), 75-175 (`Load`), 204-230 (`Destroy`), 238-259 (`Eval`), 279-290 (`Initialize`), 299-337
(`InitInterpolation`), 342-348 (`MinClone`);
/repo/include/softlib/DistributionFunction/CODEDistributionFunction.h 15-31 (members);
/repo/src/DistributionFunction/GOCODEDistributionFunction.cpp 19-30 (constructor, destructor), 115-119
(`Initialize`), 133-202 (`Load`), 207-221 (`MinClone`);
/repo/include/softlib/DistributionFunction/GOCODEDistributionFunction.h 9-24 (members).

Simplifications: an allocated array or GSL object is a number, handed out in increasing order; what is
stored in it does not matter here, nor do the sizes of the arrays except that of `interp`.  Releasing
what is not allocated, reading it, and using a pointer that is null or was never set are undefined
behaviour.  `Load` is taken from the point where the file was read without complaint; its temporary
arrays are released in the same function and are left out.  GSL accepts the number of momenta.
Evaluation is at a momentum inside the grid.  Allocation does not fail.
-/

namespace Softlib.Dist.CodeMem

/-- The members of a CODE distribution that concern memory.  `dims` is `(np, nleg)`, `none` before they
are set; pointers are `none` when null; `slots` is the contents of the array `interp`, `none` where
nothing was written; `known` says whether `interptype` is one of the enumerators. -/
structure CObj where
  dims : Option (Nat × Nat)
  p : Option Nat
  f : Option Nat
  leg : Option Nat
  accel : Option Nat
  interp : Option Nat
  slots : List (Option Nat)
  known : Bool
deriving DecidableEq, Repr

/-- `CODEDistributionFunction()`, h 15-31. -/
def CObj.fresh : CObj := ⟨none, none, none, none, none, none, [], true⟩

/-- The members of a GO+CODE distribution: `rho` and `code`, `none` before they are set; the CODE
distributions in `code` are given by their place in the list of all. -/
structure GObj where
  rho : Option Nat
  code : Option Nat
  elems : List Nat
deriving DecidableEq, Repr

/-- Memory and all distributions made so far; `none` is one that was destroyed.  A block is allocated
when its number is below `next` and it has not been `freed`. -/
structure CWorld where
  next : Nat
  freed : List Nat
  objs : List (Option CObj)
  gobjs : List (Option GObj)
deriving DecidableEq, Repr

def CWorld.empty : CWorld := ⟨0, [], [], []⟩

/-- The block is allocated and not released. -/
def CWorld.live (w : CWorld) (b : Nat) : Bool := decide (b < w.next) && !w.freed.contains b

/-- The pointer is not null and can be read through. -/
def CWorld.liveP (w : CWorld) (b : Option Nat) : Bool :=
  match b with
  | some b => w.live b
  | none => false

/-- Releasing the blocks in turn; `none` is undefined behaviour. -/
def CWorld.freeAll (w : CWorld) : List Nat → Option CWorld
  | [] => some w
  | b :: bs => if w.live b = true then CWorld.freeAll { w with freed := b :: w.freed } bs else none

/-- What an operation does. -/
inductive CRes where
  | ok (w : CWorld)
  | throws (w : CWorld)
  | ub
deriving DecidableEq, Repr

/-- What `Initialize` does to the object: the new members and the next free number. -/
inductive InitRes where
  | ok (o : CObj) (next : Nat)
  | throws (o : CObj) (next : Nat)
  | ub
deriving DecidableEq, Repr

/-- `Initialize`, 279-290, with `InitInterpolation`, 299-337.  What the members pointed to before is
not released. -/
def cInit (w : CWorld) (o : CObj) (np nleg : Nat) (p f : Option Nat) (known : Bool) : InitRes :=
  let n := w.next
  match p, f with
  | some pb, some fb =>
    let o' : CObj := ⟨some (np, nleg), some pb, some fb, some n, some (n + 1), some (n + 2), List.replicate np none, known⟩
    if nleg = 0 then .ok o' (n + 3)
    else if known = false then .throws o' (n + 3)
    else if np < nleg then .ub
    else if w.live pb = true ∧ w.live fb = true then
      .ok { o' with slots := (List.range nleg).map (fun k => some (n + 3 + k)) ++ List.replicate (np - nleg) none } (n + 3 + nleg)
    else .ub
  | _, _ => .throws ⟨some (np, nleg), p, f, some n, o.accel, o.interp, o.slots, o.known⟩ (n + 1)

/-- The first `n` entries of `interp`; `none` if one was never written or is outside. -/
def firstSlots : Nat → List (Option Nat) → Option (List Nat)
  | 0, _ => some []
  | _ + 1, [] => none
  | _ + 1, none :: _ => none
  | n + 1, some b :: s =>
    match firstSlots n s with
    | some l => some (b :: l)
    | none => none

/-- What is released for `interp`: each object in it and the array, if it is not null. -/
def CObj.interpBlocks (o : CObj) : Option (List Nat) :=
  match o.interp with
  | none => some []
  | some b =>
    match o.dims with
    | none => none
    | some (_, nleg) =>
      match firstSlots nleg o.slots with
      | some l => some (l ++ [b])
      | none => none

/-- The destructor, 43-52. -/
def cDelete (w : CWorld) (i : Nat) (o : CObj) : CRes :=
  match o.interpBlocks with
  | none => .ub
  | some l =>
    match w.freeAll (o.accel.toList ++ l) with
    | some w' => .ok { w' with objs := w'.objs.set i none }
    | none => .ub

/-- `Destroy`, 204-230. -/
def cDestroy (w : CWorld) (i : Nat) (o : CObj) : CRes :=
  match o.interpBlocks with
  | none => .ub
  | some l =>
    match w.freeAll (o.f.toList ++ o.p.toList ++ o.leg.toList ++ o.accel.toList ++ l) with
    | some w' =>
      let s := match o.interp with
        | some _ => []
        | none => o.slots
      .ok { w' with objs := w'.objs.set i (some ⟨o.dims, none, none, none, none, none, s, o.known⟩) }
    | none => .ub

/-- The memory `Eval` reads, 238-259. -/
def cEval (w : CWorld) (o : CObj) : CRes :=
  match o.dims, o.interp with
  | some (_, nleg), some b =>
    match firstSlots nleg o.slots with
    | some l =>
      if w.liveP o.p = true ∧ w.liveP o.f = true ∧ w.liveP o.leg = true ∧ w.liveP o.accel = true ∧ w.live b = true ∧ l.all w.live = true
      then .ok w else .ub
    | none => .ub
  | _, _ => .ub

/-- `Initialize` on object number `i`. -/
def cInitAt (w : CWorld) (i : Nat) (o : CObj) (np nleg : Nat) (p f : Option Nat) (known : Bool) : CRes :=
  match cInit w o np nleg p f known with
  | .ok o' n => .ok { w with next := n, objs := w.objs.set i (some o') }
  | .throws o' n => .throws { w with next := n, objs := w.objs.set i (some o') }
  | .ub => .ub

/-- `Load` on object number `i`: two new arrays, then `Initialize`, 128-175. -/
def cLoad (w : CWorld) (i : Nat) (o : CObj) (np nleg : Nat) (known : Bool) : CRes :=
  cInitAt { w with next := w.next + 2 } i o np nleg (some w.next) (some (w.next + 1)) known

/-- A new object and `Initialize` on it; when that throws nobody has the object any more. -/
def cInitNew (w : CWorld) (np nleg : Nat) (p f : Option Nat) (known : Bool) : CRes :=
  match cInit w .fresh np nleg p f known with
  | .ok o n => .ok { w with next := n, objs := w.objs ++ [some o] }
  | .throws _ n => .throws { w with next := n }
  | .ub => .ub

/-- The constructor that loads, 33-38. -/
def cCtor (w : CWorld) (np nleg : Nat) (known : Bool) : CRes :=
  cInitNew { w with next := w.next + 2 } np nleg (some w.next) (some (w.next + 1)) known

/-- `MinClone`, 342-348: the new object is given the same arrays. -/
def cClone (w : CWorld) (o : CObj) : CRes :=
  match o.dims with
  | none => .ub
  | some (np, nleg) => cInitNew w np nleg o.p o.f o.known

/-- The loop of `GOCODEDistributionFunction::Load`, 197-201. -/
def gLoadLoop (w : CWorld) (known : Bool) : List (Nat × Nat) → CRes
  | [] => .ok w
  | (np, nleg) :: ds =>
    match cCtor w np nleg known with
    | .ok w' => gLoadLoop w' known ds
    | e => e

/-- `GOCODEDistributionFunction::Load`, 133-202: `rho` and `code` are new arrays, and each element is a
new CODE distribution.  What the members pointed to before is not released. -/
def gLoad (w : CWorld) (i : Nat) (ds : List (Nat × Nat)) (known : Bool) : CRes :=
  let w1 : CWorld := { w with next := w.next + 2 }
  let g (w' : CWorld) : GObj := ⟨some w.next, some (w.next + 1), (List.range (w'.objs.length - w.objs.length)).map (w.objs.length + ·)⟩
  match gLoadLoop w1 known ds with
  | .ok w' => .ok { w' with gobjs := w'.gobjs.set i (some (g w')) }
  | .throws w' => .throws { w' with gobjs := w'.gobjs.set i (some (g w')) }
  | .ub => .ub

/-- The loop of `GOCODEDistributionFunction::MinClone`, 213-216. -/
def gCloneLoop (w : CWorld) : List Nat → CRes
  | [] => .ok w
  | k :: ks =>
    match w.objs[k]? with
    | some (some o) =>
      match cClone w o with
      | .ok w' => gCloneLoop w' ks
      | e => e
    | _ => .ub

/-- `GOCODEDistributionFunction::MinClone`, 207-221. -/
def gClone (w : CWorld) (g : GObj) : CRes :=
  match g.rho, g.code with
  | some rb, some cb =>
    if w.live rb = true ∧ w.live cb = true then
      match gCloneLoop { w with next := w.next + 2 } g.elems with
      | .ok w' => .ok { w' with gobjs := w'.gobjs ++
          [some ⟨some (w.next + 1), some w.next, (List.range (w'.objs.length - w.objs.length)).map (w.objs.length + ·)⟩] }
      | e => e
    else .ub
  | _, _ => .ub

/-- `~GOCODEDistributionFunction()`, 28-30. -/
def gDelete (w : CWorld) (i : Nat) (g : GObj) : CRes :=
  match g.code with
  | none => .ub
  | some b =>
    match w.freeAll [b] with
    | some w' => .ok { w' with gobjs := w'.gobjs.set i none }
    | none => .ub

/-- What a program can do. -/
inductive COp where
  | new
  | alloc
  | init (i np nleg p f : Nat) (known : Bool)
  | load (i np nleg : Nat) (known : Bool)
  | ctor (np nleg : Nat) (known : Bool)
  | clone (i : Nat)
  | destroy (i : Nat)
  | delete (i : Nat)
  | eval (i : Nat)
  | gnew
  | gload (i : Nat) (ds : List (Nat × Nat)) (known : Bool)
  | gclone (i : Nat)
  | gdelete (i : Nat)
deriving DecidableEq, Repr

/-- Using a distribution that is not there (any more) is undefined. -/
def withObj (w : CWorld) (i : Nat) (k : CObj → CRes) : CRes :=
  match w.objs[i]? with
  | some (some o) => k o
  | _ => .ub

def withGObj (w : CWorld) (i : Nat) (k : GObj → CRes) : CRes :=
  match w.gobjs[i]? with
  | some (some g) => k g
  | _ => .ub

/-- One operation. -/
def cStep (w : CWorld) : COp → CRes
  | .new => .ok { w with objs := w.objs ++ [some .fresh] }
  | .alloc => .ok { w with next := w.next + 1 }
  | .init i np nleg p f known => withObj w i fun o => cInitAt w i o np nleg (some p) (some f) known
  | .load i np nleg known => withObj w i fun o => cLoad w i o np nleg known
  | .ctor np nleg known => cCtor w np nleg known
  | .clone i => withObj w i fun o => cClone w o
  | .destroy i => withObj w i fun o => cDestroy w i o
  | .delete i => withObj w i fun o => cDelete w i o
  | .eval i => withObj w i fun o => cEval w o
  | .gnew => .ok { w with gobjs := w.gobjs ++ [some ⟨none, none, []⟩] }
  | .gload i ds known => withGObj w i fun _ => gLoad w i ds known
  | .gclone i => withGObj w i fun g => gClone w g
  | .gdelete i => withGObj w i fun g => gDelete w i g

/-- A program: exceptions are caught, undefined behaviour is `none`. -/
def cRun (w : CWorld) : List COp → Option CWorld
  | [] => some w
  | op :: ops =>
    match cStep w op with
    | .ok w' => cRun w' ops
    | .throws w' => cRun w' ops
    | .ub => none

end Softlib.Dist.CodeMem
