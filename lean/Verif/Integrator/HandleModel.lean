/-
Pointers into the arrays of the integrator.

Source: /repo/include/softlib/Integrator/Integrator.tcc 46-55 (`InitialValue`), 72-88 (`LastSolution`, `LastDerivative`),
148-162 (`StoreSolution`), 182-196 (`SolutionAt`, `DerivativeAt`); /repo/include/softlib/Integrator.h 11-13.

The arrays `solution` and `derivative` are treated alike, entry by entry; this is one of them.  Whether `realloc` moves
the array is decided by the allocator: a parameter of the operation.  Memory is not used again after it has been
released.  The counters do not wrap around (see RKModel.lean for that).
-/

namespace Softlib.Integrator.Handle

/-- Memory: blocks, `none` if released; entries, `none` if never written. -/
structure St (V : Type) where
  blocks : List (Option (List (Option V)))
  /-- the member `solution`: `none` is the null pointer -/
  cur : Option Nat
  /-- `ntimesteps` -/
  n : Nat
  /-- `ntsallocated` -/
  alloc : Nat

variable {V : Type}

/-- The constructor, 18-26. -/
def St.init : St V := ⟨[], none, 0, 0⟩

/-- Contents of a block. -/
def St.block (s : St V) (b : Nat) : List (Option V) := (s.blocks[b]?.join).getD []

/-- Lines 149-155: `realloc` of a null pointer is `malloc`. -/
def grow (moved : Bool) (s : St V) : St V :=
  if s.alloc ≤ s.n then
    match s.cur with
    | none => ⟨s.blocks ++ [some (List.replicate 1000 none)], some s.blocks.length, s.n, s.alloc + 1000⟩
    | some b =>
      if moved then
        ⟨s.blocks.set b none ++ [some (s.block b ++ List.replicate 1000 none)], some s.blocks.length, s.n, s.alloc + 1000⟩
      else ⟨s.blocks.set b (some (s.block b ++ List.replicate 1000 none)), some b, s.n, s.alloc + 1000⟩
  else s

/-- Lines 157-161. -/
def put (v : V) (s : St V) : St V :=
  match s.cur with
  | none => s
  | some b => ⟨s.blocks.set b (some ((s.block b).set s.n (some v))), some b, s.n + 1, s.alloc⟩

/-- What happens to an integrator: a step is stored, or an initial value is set. -/
inductive Op (V : Type) where
  | store (moved : Bool) (v : V)
  | initial (moved : Bool) (v : V)

def step (s : St V) : Op V → St V
  | .store moved v => put v (grow moved s)
  | .initial moved v => put v (grow moved { s with n := 0 })

def run (s : St V) (ops : List (Op V)) : St V := ops.foldl step s

/-- `SolutionAt(k)`: block and entry; `none` is a null pointer. -/
def solutionPtr (s : St V) (k : Nat) : Option (Nat × Nat) := s.cur.map fun b => (b, k)

/-- `LastSolution()`. -/
def lastPtr (s : St V) : Option (Nat × Nat) := if s.n = 0 then none else solutionPtr s (s.n - 1)

/-- What is found through a pointer; `none`: undefined. -/
def look (s : St V) (p : Nat × Nat) : Option V :=
  match s.blocks[p.1]? with
  | some (some l) => (l[p.2]?).join
  | _ => none

end Softlib.Integrator.Handle
