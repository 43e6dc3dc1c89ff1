/-
Model of the configuration interpreter.

Source: /repo/src/Configuration/Script/Interpreter.cpp and
/repo/src/Configuration/Script/ConfigurationScript.cpp 66-80 (FromString).

The token iterator is the list of tokens from the current one on.  Dereferencing past
the end of the vector is the outcome `ub`.  The current block `blck` is the path of
sub-block indices from the root; `GetParent` drops the last index, the root is the only
block without parent.  Error messages are dropped.
-/
import Verif.Config.BlockModel

namespace Softlib.Config

/-- Outcome of `advance` / `expect` / `advanceTo`: undefined behaviour, or a new position
together with the truth value / success. -/
inductive Mv where
  | ub
  | at (b : Bool) (s : List Tok)
  deriving DecidableEq, Repr

/-- `advance`, Interpreter.cpp 20-26. -/
def advance : List Tok → Mv
  | [] => .ub
  | t :: r =>
    if t.ty = .eof then .at false (t :: r)
    else match r with
      | [] => .ub
      | n :: r' => .at (n.ty ≠ .eof) (n :: r')

/-- `expect`, Interpreter.cpp 76-82: `at true` on success, `at false` when it throws
(at the position reached). -/
def expect (ty : TokTy) (s : List Tok) : Mv :=
  match advance s with
  | .ub => .ub
  | .at b [] => .at b []
  | .at b (t :: r) => .at (b && t.ty = ty) (t :: r)

/-- `advanceTo({NAME, BLOCKTYPE, BLOCK_END})`, Interpreter.cpp 38-49.  The next token is
read (`*(tknstream+1)`) before `advance` checks for EOF. -/
def advanceTo : List Tok → Mv
  | [] => .ub
  | [_] => .ub
  | t :: n :: r =>
    if n.ty = .name ∨ n.ty = .blocktype ∨ n.ty = .blockEnd then .at true (t :: n :: r)
    else if t.ty = .eof then .at false (t :: n :: r)
    else if n.ty = .eof then .at false (n :: r)
    else advanceTo (n :: r)

/-- The loop appending trailing values, Interpreter.cpp 157-162; the argument is the stream
at the first value.  `none` if the token after the current one does not exist. -/
def moreValues : List Tok → Option (List Str × List Tok)
  | [] => none
  | t :: r =>
    if t.ty = .eof then some ([], t :: r)          -- tokent_n() is EOF, line 103
    else match r with
      | [] => none
      | n :: r' =>
        if n.ty = .value then
          match moreValues (n :: r') with
          | none => none
          | some (vs, s) => some (n.val :: vs, s)
        else some ([], t :: n :: r')

/-- State of `Interpret`: tree, path of the current block, error flag. -/
structure ISt where
  root : Block
  path : List Nat
  err : Bool

/-- Outcome of one pass through the `try` block: undefined behaviour, normal completion,
or a caught `ConfigurationException` at a stream position. -/
inductive StmtRes where
  | ub
  | ok (st : ISt) (s : List Tok)
  | exn (st : ISt) (s : List Tok)

/-- Continue after a successful `expect`. -/
def thenExpect (ty : TokTy) (st : ISt) (s : List Tok) (k : List Tok → StmtRes) : StmtRes :=
  match expect ty s with
  | .ub => .ub
  | .at true s' => k s'
  | .at false s' => .exn st s'

/-- Value of the current token. -/
def curVal : List Tok → Str
  | [] => []
  | t :: _ => t.val

/-- `tokent_n`, Interpreter.cpp 101-107; `none` if it reads past the end. -/
def tokentN : List Tok → Option TokTy
  | [] => none
  | t :: r =>
    if t.ty = .eof then some .eof
    else match r with
      | [] => none
      | n :: _ => some n.ty

/-- `case CTKN_NAME`, Interpreter.cpp 146-166.  The setting is added (line 164) before the
semicolon is required (line 165). -/
def stmtName (st : ISt) (s : List Tok) : StmtRes :=
  let name := curVal s
  thenExpect .equals st s fun s1 =>
  thenExpect .value st s1 fun s2 =>
  match moreValues s2 with
  | none => .ub
  | some (vs, s3) =>
    let st' : ISt := ⟨st.root.modifyAt st.path
      (fun b => b.addSetting ⟨name, curVal s2 :: vs, false⟩), st.path, st.err⟩
    thenExpect .endStatement st' s3 fun s4 => .ok st' s4

/-- Enter a sub-block, Interpreter.cpp 187: `blck = blck->AddSubBlock(...)`. -/
def enterBlock (st : ISt) (t : Nat) (n sec : Str) : ISt :=
  let i := match st.root.at? st.path with
    | some b => (b.addSubBlock t n sec).2
    | none => 0
  ⟨st.root.modifyAt st.path (fun b => (b.addSubBlock t n sec).1), st.path ++ [i], st.err⟩

/-- `case CTKN_BLOCKTYPE`, Interpreter.cpp 167-188. -/
def stmtBlock (reg : Registry) (st : ISt) (s : List Tok) : StmtRes :=
  let t := reg.stringToBlockType (curVal s)
  thenExpect .blockname st s fun s1 =>
  let name := curVal s1
  match tokentN s1 with
  | none => .ub
  | some .lpar =>
    match advance s1 with
    | .ub => .ub
    | .at _ s2 =>
      thenExpect .name st s2 fun s3 =>
      thenExpect .rpar st s3 fun s4 =>
      thenExpect .blockStart st s4 fun s5 => .ok (enterBlock st t name (curVal s3)) s5
  | some _ => thenExpect .blockStart st s1 fun s2 => .ok (enterBlock st t name []) s2

/-- The `switch` of `Interpret`, Interpreter.cpp 145-197. -/
def stmt (reg : Registry) (st : ISt) (s : List Tok) : StmtRes :=
  match s with
  | [] => .ub
  | t :: _ =>
    match t.ty with
    | .name => stmtName st s
    | .blocktype => stmtBlock reg st s
    | .blockEnd =>
      if st.path = [] then .exn st s else .ok { st with path := st.path.dropLast } s
    | _ => .exn st s

/-- Outcome of `Interpret`. -/
inductive IRes where
  | ub
  /-- the exception thrown at the end when a block is left open (lines 207-209) -/
  | thrown
  | ok (root : Block) (err : Bool)

theorem advance_length {s s' : List Tok} {b : Bool} (h : advance s = .at b s') :
    s'.length ≤ s.length := by
  unfold advance at h
  repeat' split at h
  all_goals simp_all
  all_goals (try obtain ⟨_, rfl⟩ := h; simp)

theorem advance_true_length {s s' : List Tok} (h : advance s = .at true s') :
    s'.length < s.length := by
  unfold advance at h
  repeat' split at h
  all_goals simp_all
  all_goals (try obtain ⟨_, rfl⟩ := h; simp)

theorem expect_length {ty : TokTy} {s s' : List Tok} {b : Bool} (h : expect ty s = .at b s') :
    s'.length ≤ s.length := by
  unfold expect at h
  split at h
  · cases h
  · rename_i heq; cases h; exact advance_length heq
  · rename_i heq; cases h; exact advance_length heq

theorem advanceTo_length {s s' : List Tok} {b : Bool} (h : advanceTo s = .at b s') :
    s'.length ≤ s.length := by
  fun_induction advanceTo s with
  | case1 => cases h
  | case2 => cases h
  | case3 => cases h; simp
  | case4 => cases h; simp
  | case5 => cases h; simp
  | case6 _ _ _ _ _ _ ih => have := ih h; simp at *; omega

theorem moreValues_length {s s' : List Tok} {vs : List Str} (h : moreValues s = some (vs, s')) :
    s'.length ≤ s.length := by
  fun_induction moreValues s generalizing vs with
  | case1 => cases h
  | case2 => cases h; simp
  | case3 => cases h
  | case4 => cases h
  | case5 _ _ _ _ _ _ _ heq ih => cases h; have := ih heq; simp at *; omega
  | case6 => cases h; simp

def StmtRes.LenLe (n : Nat) : StmtRes → Prop
  | .ub => True
  | .ok _ s => s.length ≤ n
  | .exn _ s => s.length ≤ n

theorem thenExpect_len {ty : TokTy} {st : ISt} {s : List Tok} {k : List Tok → StmtRes} {n : Nat}
    (hs : s.length ≤ n) (hk : ∀ s', s'.length ≤ n → (k s').LenLe n) :
    (thenExpect ty st s k).LenLe n := by
  unfold thenExpect
  split
  · trivial
  · rename_i heq
    exact hk _ (Nat.le_trans (expect_length heq) hs)
  · rename_i heq
    exact Nat.le_trans (expect_length heq) hs

theorem stmt_len (reg : Registry) (st : ISt) (s : List Tok) : (stmt reg st s).LenLe s.length := by
  unfold stmt
  split
  · trivial
  · split
    · unfold stmtName
      apply thenExpect_len (Nat.le_refl _)
      intro s1 h1
      apply thenExpect_len h1
      intro s2 h2
      split
      · trivial
      · rename_i heq
        apply thenExpect_len (Nat.le_trans (moreValues_length heq) h2)
        intro s4 h4
        exact h4
    · unfold stmtBlock
      apply thenExpect_len (Nat.le_refl _)
      intro s1 h1
      simp only
      split
      · trivial
      · split
        · trivial
        · rename_i heq
          apply thenExpect_len (Nat.le_trans (advance_length heq) h1)
          intro s3 h3
          apply thenExpect_len h3
          intro s4 h4
          apply thenExpect_len h4
          intro s5 h5
          exact h5
      · apply thenExpect_len h1
        intro s2 h2
        exact h2
    · split
      · exact Nat.le_refl _
      · exact Nat.le_refl _
    · exact Nat.le_refl _

/-- The result of `try`/`catch`, Interpreter.cpp 144-203: undefined behaviour, or the state
and stream position with which `while (advance())` is evaluated. -/
def stmtCatch (reg : Registry) (st : ISt) (s : List Tok) : Option (ISt × List Tok) :=
  match stmt reg st s with
  | .ub => none
  | .ok st' s' => some (st', s')
  | .exn st' s' =>
    match advanceTo s' with
    | .ub => none
    | .at _ s'' => some ({ st' with err := true }, s'')

theorem stmtCatch_length {reg : Registry} {st st' : ISt} {s s' : List Tok}
    (h : stmtCatch reg st s = some (st', s')) : s'.length ≤ s.length := by
  unfold stmtCatch at h
  have := stmt_len reg st s
  split at h
  · cases h
  · rename_i heq; rw [heq] at this; cases h; exact this
  · rename_i heq
    rw [heq] at this
    split at h
    · cases h
    · rename_i heq2
      cases h
      exact Nat.le_trans (advanceTo_length heq2) this

/-- The `do … while (advance())` loop and the final check, Interpreter.cpp 143-211. -/
def interpLoop (reg : Registry) (st : ISt) (s : List Tok) : IRes :=
  match h : stmtCatch reg st s with
  | none => .ub
  | some (st', s') =>
    match h' : advance s' with
    | .ub => .ub
    | .at true s'' => interpLoop reg st' s''
    | .at false _ => if st'.path = [] then .ok st'.root st'.err else .thrown
  termination_by s.length
  decreasing_by
    exact Nat.lt_of_lt_of_le (advance_true_length h') (stmtCatch_length h)

/-- `Interpret`, Interpreter.cpp 133-212, on a configuration object whose error flag is
`err`. -/
def interpret (reg : Registry) (err : Bool) (tkns : List Tok) : IRes :=
  interpLoop reg ⟨Block.fresh 0 "<root>".toList [], [], err⟩ tkns

/-- Outcome of `FromString`. -/
inductive LoadRes where
  | lexThrow | lexDiverges | lexTooDeep
  | interp (r : IRes)

/-- `FromString`, ConfigurationScript.cpp 66-80 (lines counted in that file), at most `depth`
levels of included files. -/
def fromString (reg : Registry) (fs : Str → Option (List Char)) (depth : Nat) (err : Bool)
    (text : List Char) : LoadRes :=
  match lexDepth reg fs depth text with
  | .ok ts _ _ _ => .interp (interpret reg err ts)
  | .throw => .lexThrow
  | .diverges => .lexDiverges
  | .tooDeep => .lexTooDeep

end Softlib.Config
