/-
Model of the memory that tabulated momentum distributions use.

Source: /repo/src/DistributionFunction/NumericMomentumSpaceDistributionFunction.cpp 26-49 (`Eval`), 63-98 (`Initialize`), 114-130
(`InitializeLog`), 136-142 (`MinClone`); /repo/include/softlib/DistributionFunction/NumericMomentumSpaceDistributionFunction.h 19-62: the
class has no destructor.

Blocks of memory are numbered in the order of their allocation.  The grids and values are arrays of the caller, `Initialize` keeps pointers
to them; `gsl_spline2d_init` copies them, so that evaluations do not read them.  A spline with its parts counts as one block.  Simplified:
of a table only matters whether the ends of its grids are in order and whether it has a negative value; grids that make GSL abort the
program (C59, C117) are left out.
-/
namespace Softlib.Dist.TableMem

/-- Members of one object: the accelerators and the spline (`pa`, `xia`, `fspline`), the array of logarithms in `f`, and the tables of the
caller in `p` and `xi`, with whether the ends of the grids are in order. -/
structure Obj where
  gsl : List Nat
  logf : Option Nat
  arr : Option (Nat × Bool)

/-- The objects (`none` when destroyed), the blocks allocated and not released, the number of the next block, the tables the caller has
released. -/
structure St where
  objs : List (Option Obj)
  live : List Nat
  next : Nat
  freed : List Nat

inductive Op where
  | create
  | init (i a : Nat) (ordered : Bool)
  | initLog (i a : Nat) (negative ordered : Bool)
  | clone (i : Nat)
  | eval (i : Nat)
  | destroy (i : Nat)
  | release (a : Nat)

inductive Outcome where
  | done
  | throws
  deriving DecidableEq

/-- `n` new blocks. -/
def St.alloc (s : St) (n : Nat) : List Nat := (List.range n).map (s.next + ·)

/-- The object number `i` with other members, and `n` new blocks. -/
def St.put (s : St) (i n : Nat) (o : Obj) : St := ⟨s.objs.set i (some o), s.alloc n ++ s.live, s.next + n, s.freed⟩

/-- One operation; `none` is undefined behaviour. -/
def step (s : St) : Op → Option (Outcome × St)
  | .create => some (.done, ⟨s.objs ++ [some ⟨[], none, none⟩], s.live, s.next, s.freed⟩)
  | .init i a ordered =>
    match s.objs[i]? with
    | some (some o) =>
      if a ∈ s.freed then none
      else if ordered then some (.done, s.put i 3 ⟨s.alloc 3, none, some (a, true)⟩)
      else some (.throws, s.put i 0 ⟨o.gsl, none, some (a, false)⟩)
    | _ => none
  | .initLog i a negative ordered =>
    match s.objs[i]? with
    | some (some o) =>
      if a ∈ s.freed then none
      else if negative then some (.throws, s.put i 1 o)
      else if ordered then some (.done, s.put i 4 ⟨(s.alloc 4).drop 1, some s.next, some (a, true)⟩)
      else some (.throws, s.put i 1 ⟨o.gsl, some s.next, some (a, false)⟩)
    | _ => none
  | .clone i =>
    match s.objs[i]? with
    | some (some o) =>
      match o.arr with
      | none => none
      | some (a, ordered) =>
        if a ∈ s.freed then none
        else if ordered then
          some (.done, ⟨s.objs ++ [some ⟨s.alloc 3, o.logf, some (a, true)⟩], s.alloc 3 ++ s.live, s.next + 3, s.freed⟩)
        -- the new object itself is lost
        else some (.throws, ⟨s.objs, s.alloc 1 ++ s.live, s.next + 1, s.freed⟩)
    | _ => none
  | .eval i =>
    match s.objs[i]? with
    | some (some o) => if o.gsl = [] ∨ ¬ ∀ b ∈ o.gsl, b ∈ s.live then none else some (.done, s)
    | _ => none
  | .destroy i =>
    match s.objs[i]? with
    | some (some _) => some (.done, ⟨s.objs.set i none, s.live, s.next, s.freed⟩)
    | _ => none
  | .release a => if a ∈ s.freed then none else some (.done, ⟨s.objs, s.live, s.next, a :: s.freed⟩)

/-- A sequence of operations, with the outcomes. -/
def run (s : St) : List Op → Option (List Outcome × St)
  | [] => some ([], s)
  | op :: rest =>
    match step s op with
    | none => none
    | some (r, s') =>
      match run s' rest with
      | none => none
      | some (rs, s'') => some (r :: rs, s'')

/-- The beginning of a program. -/
def start : St := ⟨[], [], 0, []⟩

end Softlib.Dist.TableMem
