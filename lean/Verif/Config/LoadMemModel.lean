/-
Objects made and released when configuration scripts are loaded.

Source: /repo/src/Configuration/Script/Interpreter.cpp 133-212 (`new ConfigBlock` 134, `new
SettingScript` 154), /repo/src/Configuration/ConfigBlock.cpp 54-88 (`AddSetting` deletes the new
setting when the name exists, line 60; `AddSubBlock` makes a block, line 74, and forgets it when the
block exists, line 83), /repo/src/Configuration/Script/ConfigurationScript.cpp 66-80 (tokens are
deleted after the interpretation), /repo/src/Configuration/Configuration.cpp 25-35 (constructor and
destructor).

The interpreter is that of InterpModel with counters added.  Texts that the lexer refuses are left
out: the tokens made before the exception are lost as well, but the lexer model does not return them.
-/
import Verif.Config.InterpModel

namespace Softlib.Config

/-- Numbers of `new ConfigBlock`, of `new SettingScript` and of deleted settings. -/
structure Mem where
  blocks : Nat
  sets : Nat
  freed : Nat
deriving DecidableEq, Repr

mutual
/-- The number of blocks of a tree. -/
def Block.blockCount : Block → Nat
  | .mk _ _ _ _ subs => 1 + Block.blockCounts subs
def Block.blockCounts : List Block → Nat
  | [] => 0
  | b :: bs => b.blockCount + Block.blockCounts bs
end

mutual
/-- The number of settings of a tree. -/
def Block.setCount : Block → Nat
  | .mk _ _ _ sets subs => sets.length + Block.setCounts subs
def Block.setCounts : List Block → Nat
  | [] => 0
  | b :: bs => b.setCount + Block.setCounts bs
end

/-- Outcome of one pass, with the counters. -/
inductive StmtResM where
  | ub
  | ok (st : ISt) (m : Mem) (s : List Tok)
  | exn (st : ISt) (m : Mem) (s : List Tok)

/-- Continue after a successful `expect`. -/
def thenExpectM (ty : TokTy) (st : ISt) (m : Mem) (s : List Tok) (k : List Tok → StmtResM) : StmtResM :=
  match expect ty s with
  | .ub => .ub
  | .at true s' => k s'
  | .at false s' => .exn st m s'

/-- `new SettingScript` and `AddSetting` on the current block (Interpreter.cpp 154, 164; ConfigBlock.cpp
54-67): the new setting is deleted when the block has one of that name. -/
def addSettingM (st : ISt) (m : Mem) (n : Str) : Mem :=
  match st.root.at? st.path with
  | some b => if b.hasSetting n then ⟨m.blocks, m.sets + 1, m.freed + 1⟩ else ⟨m.blocks, m.sets + 1, m.freed⟩
  | none => ⟨m.blocks, m.sets + 1, m.freed⟩

/-- `case CTKN_NAME`, Interpreter.cpp 146-166. -/
def stmtNameM (st : ISt) (m : Mem) (s : List Tok) : StmtResM :=
  let name := curVal s
  thenExpectM .equals st m s fun s1 =>
  thenExpectM .value st m s1 fun s2 =>
  match moreValues s2 with
  | none => .ub
  | some (vs, s3) =>
    let st' : ISt := ⟨st.root.modifyAt st.path
      (fun b => b.addSetting ⟨name, curVal s2 :: vs, false⟩), st.path, st.err⟩
    let m' := addSettingM st m name
    thenExpectM .endStatement st' m' s3 fun s4 => .ok st' m' s4

/-- `case CTKN_BLOCKTYPE`, Interpreter.cpp 167-188: `AddSubBlock` always makes a block
(ConfigBlock.cpp 74). -/
def stmtBlockM (reg : Registry) (st : ISt) (m : Mem) (s : List Tok) : StmtResM :=
  let t := reg.stringToBlockType (curVal s)
  let m' : Mem := ⟨m.blocks + 1, m.sets, m.freed⟩
  thenExpectM .blockname st m s fun s1 =>
  let name := curVal s1
  match tokentN s1 with
  | none => .ub
  | some .lpar =>
    match advance s1 with
    | .ub => .ub
    | .at _ s2 =>
      thenExpectM .name st m s2 fun s3 =>
      thenExpectM .rpar st m s3 fun s4 =>
      thenExpectM .blockStart st m s4 fun s5 => .ok (enterBlock st t name (curVal s3)) m' s5
  | some _ => thenExpectM .blockStart st m s1 fun s2 => .ok (enterBlock st t name []) m' s2

/-- The `switch` of `Interpret`, Interpreter.cpp 145-197. -/
def stmtM (reg : Registry) (st : ISt) (m : Mem) (s : List Tok) : StmtResM :=
  match s with
  | [] => .ub
  | t :: _ =>
    match t.ty with
    | .name => stmtNameM st m s
    | .blocktype => stmtBlockM reg st m s
    | .blockEnd =>
      if st.path = [] then .exn st m s else .ok { st with path := st.path.dropLast } m s
    | _ => .exn st m s

/-- `try`/`catch`, Interpreter.cpp 144-203. -/
def stmtCatchM (reg : Registry) (st : ISt) (m : Mem) (s : List Tok) : Option (ISt × Mem × List Tok) :=
  match stmtM reg st m s with
  | .ub => none
  | .ok st' m' s' => some (st', m', s')
  | .exn st' m' s' =>
    match advanceTo s' with
    | .ub => none
    | .at _ s'' => some ({ st' with err := true }, m', s'')

/-- Outcome of `Interpret` with the counters and, for the exception at the end, the tree that nobody
will have any more. -/
inductive IResM where
  | ub
  | thrown (root : Block) (err : Bool) (m : Mem)
  | ok (root : Block) (err : Bool) (m : Mem)

/-- The loop, Interpreter.cpp 143-211, for at most `fuel` statements; every statement takes a token,
so the number of tokens is enough. -/
def interpLoopM (reg : Registry) : Nat → ISt → Mem → List Tok → IResM
  | 0, _, _, _ => .ub
  | fuel + 1, st, m, s =>
    match stmtCatchM reg st m s with
    | none => .ub
    | some (st', m', s') =>
      match advance s' with
      | .ub => .ub
      | .at true s'' => interpLoopM reg fuel st' m' s''
      | .at false _ => if st'.path = [] then .ok st'.root st'.err m' else .thrown st'.root st'.err m'

/-- `Interpret`, Interpreter.cpp 133-212. -/
def interpretM (reg : Registry) (err : Bool) (tkns : List Tok) : IResM :=
  interpLoopM reg (tkns.length + 1) ⟨Block.fresh 0 "<root>".toList [], [], err⟩ ⟨1, 0, 0⟩ tkns

/-- A configuration and the objects made and released on its behalf (blocks, settings and tokens
together). -/
structure LMem where
  root : Block
  err : Bool
  made : Nat
  freed : Nat

/-- `Configuration()`, Configuration.cpp 25-28. -/
def LMem.fresh : LMem := ⟨Block.fresh 0 "<root>".toList [], false, 1, 0⟩

/-- `FromString` from line 73 on, for a text that the lexer turns into the tokens `ts`: the root is
replaced, and the tokens are deleted unless the interpreter throws.  `none` is undefined behaviour. -/
def LMem.load (reg : Registry) (w : LMem) (ts : List Tok) : Option LMem :=
  match interpretM reg w.err ts with
  | .ub => none
  | .thrown _ err m => some ⟨w.root, err, w.made + ts.length + m.blocks + m.sets, w.freed + m.freed⟩
  | .ok root err m => some ⟨root, err, w.made + ts.length + m.blocks + m.sets, w.freed + m.freed + ts.length⟩

/-- Loading one script after another. -/
def LMem.loads (reg : Registry) (w : LMem) : List (List Tok) → Option LMem
  | [] => some w
  | ts :: rest =>
    match w.load reg ts with
    | some w' => LMem.loads reg w' rest
    | none => none

/-- `~Configuration()`, Configuration.cpp 35: the body is empty. -/
def LMem.destroy (w : LMem) : Nat × Nat := (w.made, w.freed)

end Softlib.Config
