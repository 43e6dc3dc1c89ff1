/-
Lemmas about the interpreter loop: success of single statements, soundness, error flag.
-/
import Verif.Config.InterpModel
import Verif.Config.InterpSpec

namespace Softlib.Config

theorem interpLoop_eq (reg : Registry) (st : ISt) (s : List Tok) :
    interpLoop reg st s =
      match stmtCatch reg st s with
      | none => .ub
      | some (st', s') =>
        match advance s' with
        | .ub => .ub
        | .at true s'' => interpLoop reg st' s''
        | .at false _ => if st'.path = [] then .ok st'.root st'.err else .thrown := by
  rw [interpLoop]
  split
  · rename_i h; rw [h]
  · rename_i h
    rw [h]
    simp only
    split <;> rename_i h' <;> simp [h']

/-- What happens after a statement whose last token is not EOF. -/
def cont (reg : Registry) (st : ISt) : List Tok → IRes
  | [] => .ub
  | t :: r =>
    if t.ty = .eof then (if st.path = [] then .ok st.root st.err else .thrown)
    else interpLoop reg st (t :: r)

theorem interpLoop_of_ok {reg : Registry} {st st' : ISt} {s rest : List Tok} {l : Tok}
    (h : stmt reg st s = .ok st' (l :: rest)) (hl : l.ty ≠ .eof) :
    interpLoop reg st s = cont reg st' rest := by
  rw [interpLoop_eq]
  simp only [stmtCatch, h]
  cases rest with
  | nil => simp [advance, hl, cont]
  | cons n r => by_cases hn : n.ty = .eof <;> simp [advance, hl, cont, hn]

theorem thenExpect_hit {ty : TokTy} {st : ISt} {t n : Tok} {r : List Tok} {k : List Tok → StmtRes}
    (ht : t.ty ≠ .eof) (hn : n.ty = ty) (hty : ty ≠ .eof) :
    thenExpect ty st (t :: n :: r) k = k (n :: r) := by
  have : n.ty ≠ .eof := by rw [hn]; exact hty
  simp [thenExpect, expect, advance, ht, hn, hty]

theorem moreValues_all {t : Tok} {vs : List Tok} {s : Tok} {rest : List Tok} (ht : t.ty = .value)
    (hv : ∀ x ∈ vs, x.ty = .value) (hs : s.ty ≠ .value) :
    moreValues (t :: (vs ++ s :: rest)) =
      some (vs.map Tok.val, (t :: vs).getLast (by simp) :: s :: rest) := by
  induction vs generalizing t with
  | nil => simp [moreValues, ht, hs]
  | cons v vs ih =>
    have hv1 : v.ty = .value := hv v (by simp)
    have := ih hv1 (fun x hx => hv x (by simp [hx]))
    rw [List.cons_append, moreValues]
    simp [ht, hv1, this]

theorem stmt_setting (reg : Registry) (st : ISt) {n e v s : Tok} {vs rest : List Tok}
    (hn : n.ty = .name) (he : e.ty = .equals) (hv : v.ty = .value) (hvs : ∀ x ∈ vs, x.ty = .value)
    (hs : s.ty = .endStatement) :
    stmt reg st (n :: e :: v :: (vs ++ s :: rest)) =
      .ok ⟨st.root.modifyAt st.path
        (fun b => b.addSetting ⟨n.val, v.val :: vs.map Tok.val, false⟩), st.path, st.err⟩
        (s :: rest) := by
  simp only [stmt, hn, stmtName]
  rw [thenExpect_hit (by simp [hn]) he (by simp), thenExpect_hit (by simp [he]) hv (by simp),
    moreValues_all hv hvs (by simp [hs])]
  simp only [curVal]
  rw [thenExpect_hit _ hs (by simp)]
  have : (v :: vs).getLast (by simp) ∈ v :: vs := List.getLast_mem _
  rcases List.mem_cons.1 this with h | h
  · rw [h, hv]; simp
  · rw [hvs _ h]; simp

theorem stmt_open (reg : Registry) (st : ISt) {t n l : Tok} {rest : List Tok}
    (ht : t.ty = .blocktype) (hn : n.ty = .blockname) (hl : l.ty = .blockStart) :
    stmt reg st (t :: n :: l :: rest) =
      .ok (enterBlock st (reg.stringToBlockType t.val) n.val []) (l :: rest) := by
  simp only [stmt, ht, stmtBlock]
  rw [thenExpect_hit (by simp [ht]) hn (by simp)]
  simp only [tokentN, hn, hl, curVal]
  simp only [reduceCtorEq, if_false]
  rw [thenExpect_hit (by simp [hn]) hl (by simp)]

theorem stmt_openSec (reg : Registry) (st : ISt) {t n lp m rp l : Tok} {rest : List Tok}
    (ht : t.ty = .blocktype) (hn : n.ty = .blockname) (hlp : lp.ty = .lpar) (hm : m.ty = .name)
    (hrp : rp.ty = .rpar) (hl : l.ty = .blockStart) :
    stmt reg st (t :: n :: lp :: m :: rp :: l :: rest) =
      .ok (enterBlock st (reg.stringToBlockType t.val) n.val m.val) (l :: rest) := by
  simp only [stmt, ht, stmtBlock]
  rw [thenExpect_hit (by simp [ht]) hn (by simp)]
  simp only [tokentN, hn, hlp, curVal, advance]
  simp only [reduceCtorEq, if_false]
  rw [thenExpect_hit (by simp [hlp]) hm (by simp), thenExpect_hit (by simp [hm]) hrp (by simp),
    thenExpect_hit (by simp [hrp]) hl (by simp)]

theorem stmt_close (reg : Registry) (st : ISt) {c : Tok} {rest : List Tok} (hc : c.ty = .blockEnd)
    (hp : st.path ≠ []) :
    stmt reg st (c :: rest) = .ok ⟨st.root, st.path.dropLast, st.err⟩ (c :: rest) := by
  simp [stmt, hc, hp]

/-! ### Completeness: grammatical streams are accepted -/

theorem stmt_of_Stmt1 (reg : Registry) (st : ISt) {u rest : List Tok} {d : Nat}
    (h : Stmt1 st.path.length u d) :
    ∃ st' l, stmt reg st (u ++ rest) = .ok st' (l :: rest) ∧ l.ty ≠ .eof ∧
      st'.path.length = d ∧ st'.err = st.err := by
  generalize hd : st.path.length = d0 at h
  cases h with
  | setting hn he hv hvs hs =>
    have h0 := stmt_setting reg st hn he hv hvs hs (rest := rest)
    refine ⟨_, _, (by simpa using h0), ?_, ?_, ?_⟩ <;> simp [hs, hd]
  | openBlock ht hn hl =>
    refine ⟨_, _, stmt_open reg st ht hn hl, ?_, ?_, ?_⟩ <;> simp [hl, enterBlock, hd]
  | openBlockSec ht hn hlp hm hrp hl =>
    refine ⟨_, _, stmt_openSec reg st ht hn hlp hm hrp hl, ?_, ?_, ?_⟩ <;> simp [hl, enterBlock, hd]
  | closeBlock hc =>
    refine ⟨_, _, stmt_close reg st hc ?_, ?_, ?_, ?_⟩
    · intro h; simp [h] at hd
    all_goals simp [hc, hd]

theorem Stmt1.ne_nil {d e : Nat} {u : List Tok} (h : Stmt1 d u e) : u ≠ [] := by
  cases h <;> simp

theorem Stmt1.no_eof {d e : Nat} {u : List Tok} (h : Stmt1 d u e) : ∀ t ∈ u, t.ty ≠ .eof := by
  cases h
  case setting hn he hv hvs hs =>
    intro t ht
    simp only [List.mem_cons, List.mem_append, List.not_mem_nil, or_false] at ht
    rcases ht with rfl | rfl | rfl | ht | rfl
    · simp [hn]
    · simp [he]
    · simp [hv]
    · simp [hvs t ht]
    · simp [hs]
  all_goals
    intro t ht
    simp only [List.mem_cons, List.not_mem_nil, or_false] at ht
    rcases ht with rfl | rfl | rfl | rfl | rfl | rfl <;> simp_all

theorem Stmts.no_eof {d e : Nat} {u : List Tok} (h : Stmts d u e) : ∀ t ∈ u, t.ty ≠ .eof := by
  induction h with
  | nil => simp
  | cons h _ ih =>
    intro t ht
    rcases List.mem_append.1 ht with ht | ht
    · exact h.no_eof t ht
    · exact ih t ht

/-- Running through grammatical statements, from between statements. -/
theorem cont_Stmts (reg : Registry) {us rest : List Tok} {d e : Nat} (h : Stmts d us e) :
    ∀ st : ISt, st.path.length = d → ∃ st', cont reg st (us ++ rest) = cont reg st' rest ∧
      st'.path.length = e ∧ st'.err = st.err := by
  induction h with
  | nil => intro st hd; exact ⟨st, rfl, hd, rfl⟩
  | @cons d d' e u us h1 _ ih =>
    intro st hd
    subst hd
    obtain ⟨st', l, hs, hl, hp, he⟩ := stmt_of_Stmt1 reg st (rest := us ++ rest) h1
    obtain ⟨st2, hc, hp2, he2⟩ := ih st' hp
    refine ⟨st2, ?_, hp2, he2.trans he⟩
    rw [List.append_assoc, ← hc, ← interpLoop_of_ok hs hl]
    cases u with
    | nil => exact absurd rfl h1.ne_nil
    | cons t u =>
      have := h1.no_eof t (by simp)
      simp [cont, this]

theorem interpret_eq_cont (reg : Registry) (err : Bool) {ts : List Tok}
    (h : ∀ t, ts.head? = some t → t.ty ≠ .eof) (hne : ts ≠ []) :
    interpret reg err ts = cont reg ⟨Block.fresh 0 "<root>".toList [], [], err⟩ ts := by
  cases ts with
  | nil => exact absurd rfl hne
  | cons t r => simp [interpret, cont, h t rfl]

/-! ### Soundness -/

theorem thenExpect_ok {ty : TokTy} {st st' : ISt} {t : Tok} {r s' : List Tok}
    {k : List Tok → StmtRes} (h : thenExpect ty st (t :: r) k = .ok st' s') (ht : t.ty ≠ .eof) :
    ∃ n r', r = n :: r' ∧ n.ty = ty ∧ k (n :: r') = .ok st' s' := by
  cases r with
  | nil => simp [thenExpect, expect, advance, ht] at h
  | cons n r' =>
    refine ⟨n, r', rfl, ?_⟩
    simp only [thenExpect, expect, advance, ht, if_false] at h
    by_cases h1 : n.ty = .eof
    · simp [h1] at h
    · by_cases h2 : n.ty = ty
      · subst h2
        simp [h1] at h
        exact ⟨rfl, h⟩
      · simp [h1, h2] at h

theorem moreValues_split {t : Tok} {r s' : List Tok} {vs : List Str} (ht : t.ty = .value)
    (h : moreValues (t :: r) = some (vs, s')) :
    ∃ ws rest, r = ws ++ rest ∧ (∀ x ∈ ws, x.ty = .value) ∧
      s' = (t :: ws).getLast (by simp) :: rest := by
  induction r generalizing t vs with
  | nil => simp [moreValues, ht] at h
  | cons n r ih =>
    rw [moreValues] at h
    simp only [ht] at h
    simp only [reduceCtorEq, if_false] at h
    by_cases hn : n.ty = .value
    · simp only [hn, if_true] at h
      split at h
      · cases h
      · rename_i vs2 s2 heq
        cases h
        obtain ⟨ws, rest, rfl, hw, rfl⟩ := ih hn heq
        refine ⟨n :: ws, rest, rfl, ?_, ?_⟩
        · intro x hx
          rcases List.mem_cons.1 hx with rfl | hx
          · exact hn
          · exact hw x hx
        · simp
    · simp only [hn, if_false] at h
      cases h
      exact ⟨[], n :: r, rfl, by simp, by simp⟩

/-- A statement that completes normally is a statement of the grammar. -/
theorem stmt_sound {reg : Registry} {st st' : ISt} {s s' : List Tok}
    (h : stmt reg st s = .ok st' s') :
    ∃ u l rest, s = u ++ rest ∧ s' = l :: rest ∧ l.ty ≠ .eof ∧
      Stmt1 st.path.length u st'.path.length ∧ st'.err = st.err := by
  unfold stmt at h
  split at h
  · cases h
  · rename_i t r
    split at h
    · rename_i hty
      unfold stmtName at h
      obtain ⟨e, r1, rfl, he, h⟩ := thenExpect_ok h (by simp [hty])
      obtain ⟨v, r2, rfl, hv, h⟩ := thenExpect_ok h (by simp [he])
      split at h
      · cases h
      · rename_i vs s3 hm
        obtain ⟨ws, rest, rfl, hw, rfl⟩ := moreValues_split hv hm
        have hlast : ((v :: ws).getLast (by simp)).ty ≠ .eof := by
          have : (v :: ws).getLast (by simp) ∈ v :: ws := List.getLast_mem _
          rcases List.mem_cons.1 this with h | h
          · rw [h, hv]; simp
          · rw [hw _ h]; simp
        obtain ⟨sm, r3, rfl, hs, h⟩ := thenExpect_ok h hlast
        cases h
        refine ⟨t :: e :: v :: (ws ++ [sm]), sm, r3, by simp, rfl, by simp [hs], ?_, rfl⟩
        exact .setting hty he hv hw hs
    · rename_i hty
      unfold stmtBlock at h
      obtain ⟨n, r1, rfl, hn, h⟩ := thenExpect_ok h (by simp [hty])
      simp only at h
      split at h
      · cases h
      · rename_i hl
        cases r1 with
        | nil => simp [tokentN, hn] at hl
        | cons lp r2 =>
          simp only [tokentN, hn] at hl
          simp only [reduceCtorEq, if_false, Option.some.injEq] at hl
          simp only [advance, hn] at h
          simp only [reduceCtorEq, if_false] at h
          obtain ⟨m, r3, rfl, hm, h⟩ := thenExpect_ok h (by simp [hl])
          obtain ⟨rp, r4, rfl, hrp, h⟩ := thenExpect_ok h (by simp [hm])
          obtain ⟨bs, r5, rfl, hbs, h⟩ := thenExpect_ok h (by simp [hrp])
          cases h
          refine ⟨[t, n, lp, m, rp, bs], bs, r5, by simp, rfl, by simp [hbs], ?_, rfl⟩
          have : (enterBlock st (reg.stringToBlockType (curVal (t :: n :: lp :: m :: rp :: bs :: r5)))
            (curVal (n :: lp :: m :: rp :: bs :: r5)) (curVal (m :: rp :: bs :: r5))).path.length
              = st.path.length + 1 := by simp [enterBlock]
          rw [this]
          exact .openBlockSec hty hn hl hm hrp hbs
      · obtain ⟨bs, r2, rfl, hbs, h⟩ := thenExpect_ok h (by simp [hn])
        cases h
        refine ⟨[t, n, bs], bs, r2, by simp, rfl, by simp [hbs], ?_, rfl⟩
        have : (enterBlock st (reg.stringToBlockType (curVal (t :: n :: bs :: r2)))
            (curVal (n :: bs :: r2)) []).path.length = st.path.length + 1 := by simp [enterBlock]
        rw [this]
        exact .openBlock hty hn hbs
    · rename_i hty
      split at h
      · cases h
      · rename_i hp
        cases h
        refine ⟨[t], t, r, by simp, rfl, by simp [hty], ?_, rfl⟩
        have : st.path.length = st.path.dropLast.length + 1 := by
          have : 0 < st.path.length := by
            cases h : st.path with
            | nil => exact absurd h hp
            | cons a b => simp
          simp; omega
        rw [this]
        exact .closeBlock hty
    · cases h

theorem thenExpect_err {ty : TokTy} {st : ISt} {s : List Tok} {k : List Tok → StmtRes}
    {st' : ISt} {s' : List Tok}
    (hk : ∀ x, k x = .exn st' s' → st'.err = st.err)
    (h : thenExpect ty st s k = .exn st' s') : st'.err = st.err := by
  unfold thenExpect at h
  split at h
  · cases h
  · exact hk _ h
  · cases h; rfl

/-- Once set, the error flag stays set. -/
theorem interpLoop_err {reg : Registry} {st : ISt} {s : List Tok} {r : Block} {e : Bool}
    (h : interpLoop reg st s = .ok r e) (he : st.err = true) : e = true := by
  have key : ∀ n, ∀ (st : ISt) (s : List Tok), s.length ≤ n → st.err = true →
      interpLoop reg st s = .ok r e → e = true := by
    intro n
    induction n with
    | zero =>
      intro st s hs _ h
      have : s = [] := by cases s with | nil => rfl | cons => simp at hs
      subst this
      rw [interpLoop_eq] at h
      simp [stmtCatch, stmt] at h
    | succ n ih =>
      intro st s hs he h
      rw [interpLoop_eq] at h
      split at h
      · cases h
      · rename_i st' s' hc
        have he' : st'.err = true := by
          unfold stmtCatch at hc
          split at hc
          · cases hc
          · rename_i heq
            cases hc
            obtain ⟨_, _, _, _, _, _, _, h7⟩ := stmt_sound heq
            rw [h7, he]
          · split at hc
            · cases hc
            · cases hc; rfl
        split at h
        · cases h
        · rename_i s'' ha
          refine ih st' s'' ?_ he' h
          have := advance_true_length ha
          have := stmtCatch_length hc
          omega
        · split at h
          · cases h; exact he'
          · cases h
  exact key _ _ _ (Nat.le_refl _) he h

theorem sound_aux {reg : Registry} : ∀ (n : Nat) (us : List Tok) (st : ISt) (r : Block) (eofT : Tok),
    us.length ≤ n → us ≠ [] → eofT.ty = .eof → (∀ t ∈ us, t.ty ≠ .eof) →
    interpLoop reg st (us ++ [eofT]) = .ok r false → Stmts st.path.length us 0 ∧ st.err = false := by
  intro n
  induction n with
  | zero =>
    intro us st r eofT hl hne
    exact absurd (by cases us with | nil => rfl | cons => simp at hl) hne
  | succ n ih =>
    intro us st r eofT hl hne heof hno h
    rw [interpLoop_eq] at h
    cases hs : stmt reg st (us ++ [eofT]) with
    | ub => simp [stmtCatch, hs] at h
    | exn st' s' =>
      exfalso
      simp only [stmtCatch, hs] at h
      cases ha : advanceTo s' with
      | ub => simp [ha] at h
      | «at» b s'' =>
        simp only [ha] at h
        split at h
        · cases h
        · have := interpLoop_err h rfl
          cases this
        · split at h <;> cases h
    | ok st' s' =>
      obtain ⟨u, l, rest, hsplit, rfl, hl', h1, herr⟩ := stmt_sound hs
      have hno1 := h1.no_eof
      -- the statement ends before the EOF token
      have hrest : ∃ w, rest = w ++ [eofT] ∧ us = u ++ w := by
        rcases List.eq_nil_or_concat rest with rfl | ⟨w, x, rfl⟩
        · exfalso
          rw [List.append_nil] at hsplit
          exact hno1 eofT (by rw [← hsplit]; simp) heof
        · rw [List.concat_eq_append, ← List.append_assoc] at hsplit
          obtain ⟨ha, hb⟩ := List.append_inj' hsplit rfl
          cases hb
          exact ⟨w, by simp, ha⟩
      obtain ⟨w, rfl, rfl⟩ := hrest
      simp only [stmtCatch, hs] at h
      cases w with
      | nil =>
        simp only [List.nil_append, advance, hl', heof] at h
        simp only [if_false, ne_eq, not_true_eq_false, decide_false] at h
        split at h
        · rename_i hp
          injection h with _ h2
          refine ⟨?_, ?_⟩
          · rw [hp] at h1
            exact .cons h1 .nil
          · rw [← herr]; exact h2
        · cases h
      | cons t w =>
        have ht : t.ty ≠ .eof := hno t (by simp)
        simp only [List.cons_append, advance, hl', if_false] at h
        simp only [ne_eq, ht, not_false_eq_true, decide_true] at h
        have hu := h1.ne_nil
        have hulen : 0 < u.length := List.length_pos_iff.2 hu
        have := ih (t :: w) st' r eofT (by simp at hl ⊢; omega) (by simp) heof
          (fun x hx => hno x (List.mem_append_right _ hx)) h
        exact ⟨.cons h1 this.1, by rw [← herr]; exact this.2⟩

end Softlib.Config
