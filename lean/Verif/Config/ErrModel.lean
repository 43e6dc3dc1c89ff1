/-
Model of the configuration interpreter with its error messages.

Source: /repo/src/Configuration/Script/Interpreter.cpp.  This is `InterpModel` again, but every
`ConfigurationException` carries its message and the place it names: the index of the token that is
current when it is thrown (`currline`, `currcharpos` and `currfile` read that token, lines 54-68).
`interpretL_erase` shows that the two models agree.
-/
import Verif.Config.InterpModel
import Verif.Config.LexPosModel

namespace Softlib.Config

/-- The messages of `ConfigurationException`, Interpreter.cpp 80, 192, 196. -/
inductive Msg where
  /-- "Expected … but got …" -/
  | expected (want got : TokTy)
  /-- "Syntax error: Mismatched '{'." -/
  | brace
  /-- "Syntax error: Expected name or block-type, but got …" -/
  | start (got : TokTy)
  deriving DecidableEq, Repr

/-- Outcome of one pass through the `try` block. -/
inductive StmtResL where
  | ub
  | ok (st : ISt) (s : List Tok)
  | exn (st : ISt) (s : List Tok) (m : Msg)

def StmtResL.erase : StmtResL → StmtRes
  | .ub => .ub
  | .ok st s => .ok st s
  | .exn st s _ => .exn st s

/-- Type of the current token. -/
def curTy : List Tok → TokTy
  | [] => .eof
  | t :: _ => t.ty

/-- `expect`, Interpreter.cpp 76-82. -/
def thenExpectL (ty : TokTy) (st : ISt) (s : List Tok) (k : List Tok → StmtResL) : StmtResL :=
  match expect ty s with
  | .ub => .ub
  | .at true s' => k s'
  | .at false s' => .exn st s' (.expected ty (curTy s'))

/-- `case CTKN_NAME`, Interpreter.cpp 146-166. -/
def stmtNameL (st : ISt) (s : List Tok) : StmtResL :=
  let name := curVal s
  thenExpectL .equals st s fun s1 =>
  thenExpectL .value st s1 fun s2 =>
  match moreValues s2 with
  | none => .ub
  | some (vs, s3) =>
    let st' : ISt := ⟨st.root.modifyAt st.path
      (fun b => b.addSetting ⟨name, curVal s2 :: vs, false⟩), st.path, st.err⟩
    thenExpectL .endStatement st' s3 fun s4 => .ok st' s4

/-- `case CTKN_BLOCKTYPE`, Interpreter.cpp 167-188. -/
def stmtBlockL (reg : Registry) (st : ISt) (s : List Tok) : StmtResL :=
  let t := reg.stringToBlockType (curVal s)
  thenExpectL .blockname st s fun s1 =>
  let name := curVal s1
  match tokentN s1 with
  | none => .ub
  | some .lpar =>
    match advance s1 with
    | .ub => .ub
    | .at _ s2 =>
      thenExpectL .name st s2 fun s3 =>
      thenExpectL .rpar st s3 fun s4 =>
      thenExpectL .blockStart st s4 fun s5 => .ok (enterBlock st t name (curVal s3)) s5
  | some _ => thenExpectL .blockStart st s1 fun s2 => .ok (enterBlock st t name []) s2

/-- The `switch` of `Interpret`, Interpreter.cpp 145-197. -/
def stmtL (reg : Registry) (st : ISt) (s : List Tok) : StmtResL :=
  match s with
  | [] => .ub
  | t :: _ =>
    match t.ty with
    | .name => stmtNameL st s
    | .blocktype => stmtBlockL reg st s
    | .blockEnd =>
      if st.path = [] then .exn st s .brace else .ok { st with path := st.path.dropLast } s
    | ty => .exn st s (.start ty)

theorem thenExpectL_erase (ty : TokTy) (st : ISt) (s : List Tok) (k : List Tok → StmtResL) :
    (thenExpectL ty st s k).erase = thenExpect ty st s (fun s => (k s).erase) := by
  unfold thenExpectL thenExpect
  repeat' split
  all_goals first | rfl | simp_all [StmtResL.erase]

theorem stmtL_erase (reg : Registry) (st : ISt) (s : List Tok) :
    (stmtL reg st s).erase = stmt reg st s := by
  unfold stmtL stmt
  split
  · rfl
  · split <;> rename_i h <;> try simp only [h]
    · unfold stmtNameL stmtName
      rw [thenExpectL_erase]
      congr 1; funext s1
      rw [thenExpectL_erase]
      congr 1; funext s2
      split
      · rename_i h2; rw [h2]; rfl
      · rename_i h2; rw [h2, thenExpectL_erase]; rfl
    · unfold stmtBlockL stmtBlock
      rw [thenExpectL_erase]
      congr 1; funext s1
      simp only
      split
      · rename_i h2; rw [h2]; rfl
      · rename_i h2
        rw [h2]
        simp only
        split
        · rename_i h3; rw [h3]; rfl
        · rename_i h3
          rw [h3]
          simp only
          rw [thenExpectL_erase]
          congr 1; funext s3
          rw [thenExpectL_erase]
          congr 1; funext s4
          rw [thenExpectL_erase]
          rfl
      · rename_i h2 h3
        rw [thenExpectL_erase]
        split
        · rename_i h4; rw [h4] at h3; cases h3
        · rename_i h4; rw [h4] at h3; cases h3; exact absurd h4 (by simpa using h2)
        · rfl
    · split <;> rfl
    · rfl

/-- One pass through `try`/`catch`, Interpreter.cpp 144-203, together with the message printed on
`cerr` (line 200), if any: the number of tokens from the current one on, and the text. -/
def stmtCatchL (reg : Registry) (st : ISt) (s : List Tok) :
    Option (ISt × List Tok × Option (Nat × Msg)) :=
  match stmtL reg st s with
  | .ub => none
  | .ok st' s' => some (st', s', none)
  | .exn st' s' m =>
    match advanceTo s' with
    | .ub => none
    | .at _ s'' => some ({ st' with err := true }, s'', some (s'.length, m))

theorem stmtCatchL_erase (reg : Registry) (st : ISt) (s : List Tok) :
    (stmtCatchL reg st s).map (fun r => (r.1, r.2.1)) = stmtCatch reg st s := by
  unfold stmtCatchL stmtCatch
  rw [← stmtL_erase]
  split <;> rename_i h <;> rw [h] <;> simp only [StmtResL.erase, Option.map_some, Option.map_none]
  split <;> rename_i h2 <;> rw [h2] <;> rfl

theorem stmtCatchL_length {reg : Registry} {st st' : ISt} {s s' : List Tok}
    {o : Option (Nat × Msg)} (h : stmtCatchL reg st s = some (st', s', o)) :
    s'.length ≤ s.length := by
  have := stmtCatchL_erase reg st s
  rw [h] at this
  exact stmtCatch_length this.symm

/-- Outcome of `Interpret` together with what was printed: index of the token named by the message,
and message. -/
inductive IResL where
  | ub
  /-- the final exception (lines 207-209) and the index of the token it names -/
  | thrown (at' : Nat) (log : List (Nat × Msg))
  | ok (root : Block) (err : Bool) (log : List (Nat × Msg))

def IResL.erase : IResL → IRes
  | .ub => .ub
  | .thrown _ _ => .thrown
  | .ok r e _ => .ok r e

/-- The `do … while (advance())` loop and the final check, Interpreter.cpp 143-211; `total` is the
number of tokens of the whole stream, `log` what has been printed. -/
def interpLoopL (reg : Registry) (total : Nat) (log : List (Nat × Msg)) (st : ISt)
    (s : List Tok) : IResL :=
  match h : stmtCatchL reg st s with
  | none => .ub
  | some (st', s', o) =>
    let log' := log ++ (o.map fun p => (total - p.1, p.2)).toList
    match h' : advance s' with
    | .ub => .ub
    | .at true s'' => interpLoopL reg total log' st' s''
    | .at false s'' =>
      if st'.path = [] then .ok st'.root st'.err log' else .thrown (total - s''.length) log'
  termination_by s.length
  decreasing_by
    exact Nat.lt_of_lt_of_le (advance_true_length h') (stmtCatchL_length h)

/-- `Interpret`, Interpreter.cpp 133-212. -/
def interpretL (reg : Registry) (err : Bool) (tkns : List Tok) : IResL :=
  interpLoopL reg tkns.length [] ⟨Block.fresh 0 "<root>".toList [], [], err⟩ tkns

theorem interpLoopL_eq (reg : Registry) (total : Nat) (log : List (Nat × Msg)) (st : ISt)
    (s : List Tok) :
    interpLoopL reg total log st s =
      match stmtCatchL reg st s with
      | none => .ub
      | some (st', s', o) =>
        match advance s' with
        | .ub => .ub
        | .at true s'' =>
          interpLoopL reg total (log ++ (o.map fun p => (total - p.1, p.2)).toList) st' s''
        | .at false s'' =>
          if st'.path = [] then
            .ok st'.root st'.err (log ++ (o.map fun p => (total - p.1, p.2)).toList)
          else .thrown (total - s''.length) (log ++ (o.map fun p => (total - p.1, p.2)).toList) := by
  rw [interpLoopL]
  split
  · rename_i h; rw [h]
  · rename_i h
    rw [h]
    simp only
    split <;> rename_i h' <;> simp [h']

theorem interpLoopL_erase (reg : Registry) (total : Nat) (log : List (Nat × Msg)) (st : ISt)
    (s : List Tok) : (interpLoopL reg total log st s).erase = interpLoop reg st s := by
  fun_induction interpLoopL reg total log st s with
  | case1 log st s h =>
    have := stmtCatchL_erase reg st s
    rw [h] at this
    rw [interpLoop.eq_def]
    split
    · rfl
    · rename_i h2; rw [h2] at this; cases this
  | case2 log st s st' s' o h h' =>
    have := stmtCatchL_erase reg st s
    rw [h] at this
    rw [interpLoop.eq_def]
    split
    · rfl
    · rename_i h2
      rw [h2] at this
      cases this
      split
      · rfl
      · rename_i h3; rw [h'] at h3; cases h3
      · rename_i h3; rw [h'] at h3; cases h3
  | case3 log st s st' s' o h log' s'' h' ih =>
    have := stmtCatchL_erase reg st s
    rw [h] at this
    rw [interpLoop.eq_def]
    split
    · rename_i h2; rw [h2] at this; cases this
    · rename_i h2
      rw [h2] at this
      cases this
      split
      · rename_i h3; rw [h'] at h3; cases h3
      · rename_i h3; rw [h'] at h3; cases h3; exact ih
      · rename_i h3; rw [h'] at h3; cases h3
  | case4 log st s st' s' o h log' s'' h' hp =>
    have := stmtCatchL_erase reg st s
    rw [h] at this
    rw [interpLoop.eq_def]
    split
    · rename_i h2; rw [h2] at this; cases this
    · rename_i h2
      rw [h2] at this
      cases this
      split
      · rename_i h3; rw [h'] at h3; cases h3
      · rename_i h3; rw [h'] at h3; cases h3
      · rw [if_pos hp]; rfl
  | case5 log st s st' s' o h log' s'' h' hp =>
    have := stmtCatchL_erase reg st s
    rw [h] at this
    rw [interpLoop.eq_def]
    split
    · rename_i h2; rw [h2] at this; cases this
    · rename_i h2
      rw [h2] at this
      cases this
      split
      · rename_i h3; rw [h'] at h3; cases h3
      · rename_i h3; rw [h'] at h3; cases h3
      · rw [if_neg hp]; rfl

/-- The model with messages agrees with the model without. -/
theorem interpretL_erase (reg : Registry) (err : Bool) (tkns : List Tok) :
    (interpretL reg err tkns).erase = interpret reg err tkns :=
  interpLoopL_erase _ _ _ _ _

/-- A message as printed: `whats()` of `ConfigurationException(line, charpos, file, msg)`. -/
structure Report where
  line : Nat
  chr : Nat
  file : Str
  msg : Msg
  deriving DecidableEq, Repr

/-- The place of a message: the stored position of the token with this index. -/
def reportAt (pts : List PTok) (i : Nat) (m : Msg) : Option Report :=
  pts[i]?.map fun t => ⟨t.line, t.chr, t.file, m⟩

/-- `FromString`, ConfigurationScript.cpp 66-80, with the messages it prints on `cerr`, in order;
`none` when it does not return (exception of the lexer or at the end of the document, undefined
behaviour, endless loop). -/
def fromStringL (reg : Registry) (fs : Str → Option (List Char)) (file : Str) (depth : Nat)
    (filename : Str) (err : Bool) (text : List Char) :
    Option (Block × Bool × List (Option Report)) :=
  match lexDepthP reg fs file depth filename text with
  | .ok pts _ _ _ =>
    match interpretL reg err (pts.map PTok.tok) with
    | .ok root e log => some (root, e, log.map fun p => reportAt pts p.1 p.2)
    | _ => none
  | _ => none

end Softlib.Config
