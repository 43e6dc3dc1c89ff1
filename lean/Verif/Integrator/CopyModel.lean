/-
Copies of integrators, and their memory.

Source: /repo/include/softlib/Integrator.h 13-65 (members; no copy constructor, no destructor), /repo/include/softlib/RKDP45.h
10-16; /repo/include/softlib/Integrator/Integrator.tcc 18-55 (constructors, `InitialValue`), 148-162 (`StoreSolution`).

The copy constructor made by the compiler copies the pointers and the counters; the destructor made by the compiler
releases nothing.  (The classes with coefficients, which are constants, cannot be assigned.)  The arrays `time`, `solution`
and `derivative` are treated alike, entry by entry; this is one of them.  Whether `realloc` moves the array is decided by
the allocator: a parameter of the operation.  Memory is not used again after it has been released.  The counters do not
wrap around (see RKModel.lean for that).  Objects are numbered in the order in which they are made.
-/

namespace Softlib.Integrator.Own

/-- An integrator: the member `solution` (`none` is the null pointer), `ntimesteps`, `ntsallocated`. -/
structure Obj where
  cur : Option Nat
  n : Nat
  alloc : Nat

/-- Memory: blocks, `none` if released; entries, `none` if never written. -/
abbrev Mem (V : Type) := List (Option (List (Option V)))

/-- All integrators made so far, with whether they still exist, and the memory. -/
structure World (V : Type) where
  mem : Mem V
  objs : List (Bool × Obj)

variable {V : Type}

/-- Contents of a block that is not released. -/
def contents (m : Mem V) (b : Nat) : Option (List (Option V)) := (m[b]?).join

/-- What `realloc` leaves: what fits of the old contents, the rest is not written. -/
def resize (l : List (Option V)) (k : Nat) : List (Option V) := l.take k ++ List.replicate (k - l.length) none

/-- `INTEGRATOR_ALLOC_SIZE`, Integrator.h 11. -/
@[irreducible] def chunk : Nat := 1000

/-- Lines 149-155.  `realloc` of a null pointer is `malloc`; of a released block it is undefined: `none`. -/
def grow (moved : Bool) (m : Mem V) (o : Obj) : Option (Mem V × Obj) :=
  if o.alloc ≤ o.n then
    match o.cur with
    | none => some (m ++ [some (List.replicate (o.alloc + chunk) none)], ⟨some m.length, o.n, o.alloc + chunk⟩)
    | some b =>
      match contents m b with
      | none => none
      | some l =>
        if moved then some (m.set b none ++ [some (resize l (o.alloc + chunk))], ⟨some m.length, o.n, o.alloc + chunk⟩)
        else some (m.set b (some (resize l (o.alloc + chunk))), ⟨some b, o.n, o.alloc + chunk⟩)
  else some (m, o)

/-- Lines 157-161: undefined outside of a block. -/
def put (v : V) (m : Mem V) (o : Obj) : Option (Mem V × Obj) :=
  match o.cur with
  | none => none
  | some b =>
    match contents m b with
    | none => none
    | some l => if o.n < l.length then some (m.set b (some (l.set o.n (some v))), ⟨some b, o.n + 1, o.alloc⟩) else none

/-- `StoreSolution`. -/
def storeSol (moved : Bool) (v : V) (m : Mem V) (o : Obj) : Option (Mem V × Obj) := (grow moved m o).bind fun q => put v q.1 q.2

/-- What is done with integrators. -/
inductive Op (V : Type) where
  | create
  | copy (k : Nat)
  | store (k : Nat) (moved : Bool) (v : V)
  | initial (k : Nat) (moved : Bool) (v : V)
  | destroy (k : Nat)

/-- The integrator with a number, if it still exists. -/
def World.obj (w : World V) (k : Nat) : Option Obj :=
  match w.objs[k]? with
  | some (true, o) => some o
  | _ => none

/-- One operation; using an integrator that does not exist is undefined as well. -/
def step (w : World V) : Op V → Option (World V)
  | .create => some ⟨w.mem, w.objs ++ [(true, ⟨none, 0, 0⟩)]⟩
  | .copy k => (w.obj k).map fun o => ⟨w.mem, w.objs ++ [(true, o)]⟩
  | .store k moved v => (w.obj k).bind fun o => (storeSol moved v w.mem o).map fun q => ⟨q.1, w.objs.set k (true, q.2)⟩
  | .initial k moved v =>
    (w.obj k).bind fun o => (storeSol moved v w.mem { o with n := 0 }).map fun q => ⟨q.1, w.objs.set k (true, q.2)⟩
  | .destroy k => (w.obj k).map fun o => ⟨w.mem, w.objs.set k (false, o)⟩

def run (w : World V) (ops : List (Op V)) : Option (World V) := ops.foldlM step w

/-- Nothing made yet. -/
def World.start : World V := ⟨[], []⟩

/-- `SolutionAt(i)` of an integrator, read: `none` is undefined, `some none` a value never written. -/
def World.read (w : World V) (k i : Nat) : Option (Option V) :=
  (w.obj k).bind fun o => o.cur.bind fun b => (contents w.mem b).bind fun l => l[i]?

/-- `StepsTaken()`. -/
def World.steps (w : World V) (k : Nat) : Option Nat := (w.obj k).map (·.n)

/-- Number of blocks not released. -/
def live (m : Mem V) : Nat := m.countP Option.isSome

end Softlib.Integrator.Own
