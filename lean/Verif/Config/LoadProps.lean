/-
C86: loading does not depend on the source of the text nor on earlier loads.
-/
import Verif.Config.LoadModel

namespace Softlib.Config

/-! ### The error flag does not influence anything -/

def ISt.or (e : Bool) (st : ISt) : ISt := ⟨st.root, st.path, e || st.err⟩

def StmtResL.or (e : Bool) : StmtResL → StmtResL
  | .ub => .ub
  | .ok st s => .ok (st.or e) s
  | .exn st s m => .exn (st.or e) s m

def IResL.or (e : Bool) : IResL → IResL
  | .ok r e' log => .ok r (e || e') log
  | r => r

theorem thenExpectL_or (e : Bool) (ty : TokTy) (st : ISt) (s : List Tok) (k : List Tok → StmtResL) :
    (thenExpectL ty st s k).or e = thenExpectL ty (st.or e) s (fun s => (k s).or e) := by
  unfold thenExpectL
  split <;> rfl

theorem stmtL_or (e : Bool) (reg : Registry) (st : ISt) (s : List Tok) :
    (stmtL reg st s).or e = stmtL reg (st.or e) s := by
  unfold stmtL
  split
  · rfl
  · split
    · unfold stmtNameL
      simp only
      rw [thenExpectL_or]
      congr 1; funext s1
      rw [thenExpectL_or]
      congr 1; funext s2
      split
      · rfl
      · rw [thenExpectL_or]; rfl
    · unfold stmtBlockL
      simp only
      rw [thenExpectL_or]
      congr 1; funext s1
      split
      · rfl
      · split
        · rfl
        · rw [thenExpectL_or]
          congr 1; funext s3
          rw [thenExpectL_or]
          congr 1; funext s4
          rw [thenExpectL_or]
          rfl
      · rw [thenExpectL_or]; rfl
    · simp only [ISt.or]
      by_cases hp : st.path = []
      · simp [hp, StmtResL.or, ISt.or]
      · simp [hp, StmtResL.or, ISt.or]
    · rfl

theorem stmtCatchL_or (e : Bool) (reg : Registry) (st : ISt) (s : List Tok) :
    (stmtCatchL reg st s).map (fun r => (r.1.or e, r.2)) = stmtCatchL reg (st.or e) s := by
  unfold stmtCatchL
  rw [← stmtL_or]
  cases stmtL reg st s with
  | ub => rfl
  | ok st' s' => rfl
  | exn st' s' m =>
    simp only [StmtResL.or]
    cases advanceTo s' with
    | ub => rfl
    | «at» b s'' => simp [ISt.or]

theorem interpLoopL_or (e : Bool) (reg : Registry) (total : Nat) (log : List (Nat × Msg)) (st : ISt)
    (s : List Tok) :
    (interpLoopL reg total log st s).or e = interpLoopL reg total log (st.or e) s := by
  fun_induction interpLoopL reg total log st s with
  | case1 log st s h =>
    have := stmtCatchL_or e reg st s
    rw [h] at this
    rw [interpLoopL_eq, ← this]; rfl
  | case2 log st s st' s' o h h' =>
    have := stmtCatchL_or e reg st s
    rw [h] at this
    rw [interpLoopL_eq, ← this]; simp only [Option.map_some, h']; rfl
  | case3 log st s st' s' o h log' s'' h' ih =>
    have := stmtCatchL_or e reg st s
    rw [h] at this
    rw [ih, interpLoopL_eq reg total log (ISt.or e st), ← this]; simp only [Option.map_some, h']; rfl
  | case4 log st s st' s' o h log' s'' h' hp =>
    have := stmtCatchL_or e reg st s
    rw [h] at this
    rw [interpLoopL_eq, ← this]; simp only [Option.map_some, h', ISt.or, hp, if_true]; rfl
  | case5 log st s st' s' o h log' s'' h' hp =>
    have := stmtCatchL_or e reg st s
    rw [h] at this
    rw [interpLoopL_eq, ← this]; simp only [Option.map_some, h', ISt.or, hp, if_false]; rfl

theorem interpretL_or (reg : Registry) (e : Bool) (ts : List Tok) :
    interpretL reg e ts = (interpretL reg false ts).or e := by
  unfold interpretL
  rw [interpLoopL_or]
  simp [ISt.or]

/-! ### Standard input -/

theorem stdinLoop_spec (buf rest : List Char) :
    (stdinLoop buf rest).1 = buf ++ rest ∧
      (stdinLoop buf rest).1.length < (stdinLoop buf rest).2 := by
  fun_induction stdinLoop buf rest with
  | case1 buf rest h => simp; omega
  | case2 buf rest h ih =>
    refine ⟨?_, ih.2⟩
    rw [ih.1, List.append_assoc, List.take_append_drop]

theorem takeWhile_no_nul {t : List Char} (h : '\x00' ∉ t) : t.takeWhile (· ≠ '\x00') = t := by
  induction t with
  | nil => rfl
  | cons c t ih =>
    rw [List.mem_cons, not_or] at h
    have := ih h.2
    rw [List.takeWhile_cons, if_pos (by simpa using Ne.symm h.1), this]

end Softlib.Config

namespace Softlib
open Softlib.Config

/-- What a load of a text does, as far as a user sees: how it ends, the new tree if it succeeds, and
whether the error flag gets set. -/
def loadResult (reg : Registry) (fs : Str → Option (List Char)) (depth : Nat) (text : List Char) :
    Outcome × Option Block × Bool :=
  let r := (Conf.fresh reg).fromString fs depth text []
  (r.1, (match r.1 with | .ok => some r.2.root | _ => none), r.2.err)

/-- C86: what a load does depends on the text, the registered block types and the included files
only, not on the name of the source, on what was loaded before, or on the error flag; a load that
fails keeps the old tree; the flag accumulates. -/
theorem C86_history_independent (c : Conf) (fs : Str → Option (List Char)) (depth : Nat)
    (text : List Char) (src : Str) :
    let r := c.fromString fs depth text src
    let l := loadResult c.reg fs depth text
    r.1 = l.1 ∧ r.2.root = l.2.1.getD c.root ∧ r.2.reg = c.reg ∧ r.2.err = (c.err || l.2.2) := by
  obtain ⟨fn, f, root, reg, err⟩ := c
  simp only [loadResult, Conf.fromString, Conf.fresh]
  have e1 := lexDepthP_erase reg fs src depth fn text
  have e2 := lexDepthP_erase reg fs [] depth [] text
  rw [← e2] at e1
  generalize lexDepthP reg fs src depth fn text = r1 at e1
  generalize lexDepthP reg fs [] depth [] text = r2 at e1
  cases r1 <;> cases r2 <;> simp only [LexResP.erase] at e1 <;> try (cases e1; done)
  · rename_i pts a1 a2 a3 pts' b1 b2 b3
    simp only [LexRes.ok.injEq] at e1
    simp only [Conf.afterLex]
    rw [e1.1, interpretL_or reg err]
    cases interpretL reg false (pts'.map PTok.tok) <;> simp [IResL.or]
  · simp [Conf.afterLex]
  · simp [Conf.afterLex]
  · simp [Conf.afterLex]

/-- C86: the load of the object is the load of C06 to C09. -/
theorem C86_is_fromString (reg : Registry) (fs : Str → Option (List Char)) (depth : Nat)
    (text : List Char) (root : Block) (e : Bool) :
    loadResult reg fs depth text = (.ok, some root, e) ↔
      Config.fromString reg fs depth false text = .interp (.ok root e) := by
  simp only [loadResult, Conf.fromString, Conf.fresh, Config.fromString]
  rw [← lexDepthP_erase reg fs [] depth [] text]
  generalize lexDepthP reg fs [] depth [] text = r
  cases r <;> simp only [Conf.afterLex, LexResP.erase] <;> try simp
  rw [← interpretL_erase]
  rename_i pts _ _ _
  cases interpretL reg false (pts.map PTok.tok) <;> simp [IResL.erase]

/-- C86: loading a file that can be opened does what loading its text does. -/
theorem C86_from_file (c : Conf) (fs : Str → Option (List Char)) (depth : Nat) (name : Str)
    (text : List Char) (hc : c.filename = []) (hf : fs name = some text) :
    let r := c.fromFile fs depth name
    let l := loadResult c.reg fs depth text
    r.1 = l.1 ∧ r.2.root = l.2.1.getD c.root ∧ r.2.reg = c.reg ∧ r.2.err = (c.err || l.2.2) := by
  have : c.fromFile fs depth name =
      ({ c with filename := name } : Conf).fromString fs depth text name := by
    unfold Conf.fromFile
    rw [if_neg (by simp [hc]), hf]
  simp only [this]
  exact C86_history_independent { c with filename := name } fs depth text name

/-- C86: a file that cannot be opened, or a second file, is reported and changes nothing. -/
theorem C86_from_file_fails (c : Conf) (fs : Str → Option (List Char)) (depth : Nat) (name : Str)
    (h : c.filename ≠ [] ∨ fs name = none) : c.fromFile fs depth name = (.threw, c) := by
  unfold Conf.fromFile
  split
  · rfl
  · rcases h with h | h
    · contradiction
    · rw [h]

/-- C86 (part): loading from the standard input, of whatever length, does what loading its text
does, if the text contains no NUL; all of the input is consumed. -/
theorem C86_from_stdin_partial (c : Conf) (fs : Str → Option (List Char)) (depth : Nat)
    (text : List Char) (h0 : '\x00' ∉ text) :
    let r := c.fromStdin fs depth ⟨text, false⟩
    let l := loadResult c.reg fs depth text
    r.1 = l.1 ∧ r.2.1.root = l.2.1.getD c.root ∧ r.2.1.reg = c.reg ∧
      r.2.1.err = (c.err || l.2.2) ∧ r.2.2 = ⟨[], true⟩ := by
  have hs := stdinLoop_spec [] text
  rw [List.nil_append] at hs
  have : c.fromStdin fs depth ⟨text, false⟩ =
      ((c.fromString fs depth text "stdin".toList).1,
       (c.fromString fs depth text "stdin".toList).2, ⟨[], true⟩) := by
    unfold Conf.fromStdin
    simp only [Bool.false_eq_true, if_false]
    rw [if_pos hs.2, hs.1, takeWhile_no_nul h0]
  simp only [this]
  obtain ⟨h1, h2, h3, h4⟩ := C86_history_independent c fs depth text "stdin".toList
  exact ⟨h1, h2, h3, h4, trivial⟩

/-- C86: a sequence of texts loaded one after the other (each load ending normally or with an
exception) leaves the tree of the last one that succeeded, and the error flag is set exactly if one
of them sets it. -/
theorem C86_sequence (c : Conf) (fs : Str → Option (List Char)) (depth : Nat)
    (ts : List (List Char × Str)) :
    let c' := ts.foldl (fun c t => (c.fromString fs depth t.1 t.2).2) c
    let ls := ts.map fun t => loadResult c.reg fs depth t.1
    c'.root = (ls.filterMap fun l => l.2.1).getLast?.getD c.root ∧
      c'.err = (c.err || ls.any fun l => l.2.2) ∧ c'.reg = c.reg := by
  induction ts generalizing c with
  | nil => simp
  | cons t ts ih =>
    obtain ⟨h1, h2, h3, h4⟩ := C86_history_independent c fs depth t.1 t.2
    have := ih (c.fromString fs depth t.1 t.2).2
    simp only [h3] at this
    simp only [List.foldl_cons, List.map_cons, List.any_cons]
    rw [this.1, this.2.1, this.2.2, h2, h4]
    refine ⟨?_, by rw [Bool.or_assoc], rfl⟩
    cases hl : (loadResult c.reg fs depth t.1).2.1 with
    | none => rw [List.filterMap_cons, hl]; rfl
    | some b =>
      rw [List.filterMap_cons, hl, List.getLast?_cons]
      simp

example : (loadResult [] (fun _ => none) 1 "a=1;".toList).1 = .ok ∧
    (loadResult [] (fun _ => none) 1 "a=1; = b=2;".toList).2.2 = true ∧
    (loadResult [] (fun _ => none) 1 "<a>".toList).1 = .threw := by decide +kernel

/-- C86 is false for NUL: the standard input ends there, while a file with the same contents is read
differently: a comment with a NUL ends the text, but a comment without newline never ends it. -/
theorem C86_refuted_nul :
    let text := "a=1; #\x00".toList
    (((Conf.fresh []).fromStdin (fun _ => none) 1 ⟨text, false⟩).1 = .diverges) ∧
    (((Conf.fresh []).fromFile (fun _ => some text) 1 "f".toList).1 = .ok) := by
  decide +kernel

/-- C86 is false for a second load from the standard input: it writes through a null pointer. -/
theorem C86_refuted_stdin_twice (c d : Conf) (fs : Str → Option (List Char)) (depth : Nat)
    (text : List Char) :
    (d.fromStdin fs depth (c.fromStdin fs depth ⟨text, false⟩).2.2).1 = .ub := by
  have hs := stdinLoop_spec [] text
  have : (c.fromStdin fs depth ⟨text, false⟩).2.2 = ⟨[], true⟩ := by
    unfold Conf.fromStdin
    simp only [Bool.false_eq_true, if_false]
    rw [if_pos hs.2]
  rw [this]
  rfl

/-- C86 is false for files after a failed load: a text whose included file includes a missing file
leaves that file's name behind, and then no file can be loaded although none ever was. -/
theorem C86_refuted_leftover_name :
    let fs : Str → Option (List Char) := fun n =>
      if n = "a".toList then some "<b>".toList else if n = "c".toList then some "x=1;".toList else none
    let c := ((Conf.fresh []).fromString fs 2 "<a>".toList []).2
    c.filename = "a".toList ∧ (c.fromFile fs 2 "c".toList).1 = .threw ∧
      ((Conf.fresh []).fromFile fs 2 "c".toList).1 = .ok := by
  decide +kernel

theorem stdinLoop_size (buf rest : List Char) :
    (stdinLoop buf rest).2 = buf.length + 1000 * (rest.length / 1000) + 1001 := by
  fun_induction stdinLoop buf rest with
  | case1 buf rest h => simp; omega
  | case2 buf rest h ih =>
    rw [ih, List.length_append, List.length_take, List.length_drop]
    omega

/-- The memory of `FromStdin`: the input is stored whole, in 1001 bytes more than the largest
multiple of 1000 that the input has; so the terminator fits, with 1 to 1000 bytes to spare. -/
theorem C86_stdin_memory (text : List Char) :
    (stdinLoop [] text).1 = text ∧ (stdinLoop [] text).2 = 1000 * (text.length / 1000) + 1001 ∧
    text.length + 2 ≤ (stdinLoop [] text).2 := by
  have h := (stdinLoop_spec [] text).1
  have hs := stdinLoop_size [] text
  rw [List.nil_append] at h
  simp only [List.length_nil, Nat.zero_add] at hs
  exact ⟨h, hs, by omega⟩

example : (stdinLoop [] (List.replicate 1000 'a')).2 = 2001 := by
  rw [(C86_stdin_memory _).2.1, List.length_replicate]

end Softlib
