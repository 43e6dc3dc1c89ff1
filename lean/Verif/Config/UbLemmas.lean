/-
Lemmas about undefined behaviour in the interpreter.
-/
import Verif.Config.InterpLemmas

namespace Softlib.Config

/-- `;`, `{` or `}`. -/
def Closing (t : Tok) : Prop := t.ty = .endStatement ∨ t.ty = .blockStart ∨ t.ty = .blockEnd

/-- A stream of non-EOF tokens, the last of them closing a statement, followed by EOF. -/
def Closed (s : List Tok) : Prop :=
  ∃ w l e, s = w ++ [l, e] ∧ e.ty = .eof ∧ Closing l ∧ ∀ t ∈ w, t.ty ≠ .eof

theorem Closing.ne_eof {t : Tok} (h : Closing t) : t.ty ≠ .eof := by
  rcases h with h | h | h <;> simp [h]

/-- The head of a closed stream is not EOF, and unless it is a closing token, the rest is
closed. -/
theorem Closed.cases {s : List Tok} (h : Closed s) :
    ∃ t r, s = t :: r ∧ t.ty ≠ .eof ∧ (Closed r ∨ (Closing t ∧ ∃ e, r = [e] ∧ e.ty = .eof)) := by
  obtain ⟨w, l, e, rfl, he, hl, hw⟩ := h
  cases w with
  | nil => exact ⟨l, [e], rfl, hl.ne_eof, .inr ⟨hl, e, rfl, he⟩⟩
  | cons t w =>
    exact ⟨t, w ++ [l, e], rfl, hw t (by simp), .inl ⟨w, l, e, rfl, he, hl,
      fun x hx => hw x (by simp [hx])⟩⟩

def StmtRes.Good : StmtRes → Prop
  | .ub => False
  | .ok _ s => Closed s
  | .exn _ s => Closed s

theorem thenExpect_good {ty : TokTy} {st : ISt} {t : Tok} {r : List Tok} {k : List Tok → StmtRes}
    (h : Closed (t :: r)) (ht : ¬ Closing t)
    (hk : ∀ n r', Closed (n :: r') → n.ty = ty → (k (n :: r')).Good) :
    (thenExpect ty st (t :: r) k).Good := by
  obtain ⟨t', r', e, hne, hc⟩ := h.cases
  cases e
  rcases hc with hc | hc
  · obtain ⟨n, r2, rfl, hn, -⟩ := hc.cases
    by_cases hty : n.ty = ty
    · have := hk n r2 hc hty
      subst hty
      rw [thenExpect_hit hne rfl hn]
      exact this
    · simp only [thenExpect, expect, advance, hne, hn, if_false, ne_eq, not_false_eq_true,
        decide_true, Bool.true_and, hty, decide_false]
      exact hc
  · exact absurd hc.1 ht

theorem moreValues_good {t : Tok} {r : List Tok} (h : Closed (t :: r)) (ht : t.ty = .value) :
    ∃ vs t' r', moreValues (t :: r) = some (vs, t' :: r') ∧ Closed (t' :: r') ∧ t'.ty = .value := by
  induction r generalizing t with
  | nil =>
    obtain ⟨t', r', e, -, hc⟩ := h.cases
    cases e
    rcases hc with hc | ⟨-, e, he, -⟩
    · obtain ⟨_, _, h, _⟩ := hc.cases; cases h
    · cases he
  | cons n r ih =>
    rw [moreValues]
    simp only [ht]
    simp only [reduceCtorEq, if_false]
    by_cases hn : n.ty = .value
    · obtain ⟨t', r', e, -, hc⟩ := h.cases
      cases e
      rcases hc with hc | ⟨hc, -⟩
      · obtain ⟨vs, t', r', e, h1, h2⟩ := ih hc hn
        refine ⟨n.val :: vs, t', r', ?_, h1, h2⟩
        simp [hn, e]
      · simp [Closing, ht] at hc
    · simp only [hn, if_false]
      exact ⟨[], t, n :: r, rfl, h, ht⟩

theorem stmt_good (reg : Registry) (st : ISt) {s : List Tok} (h : Closed s) :
    (stmt reg st s).Good := by
  obtain ⟨t, r, rfl, ht, hc⟩ := h.cases
  unfold stmt
  simp only
  split
  · rename_i hty
    have hnc : ¬ Closing t := by simp [Closing, hty]
    unfold stmtName
    apply thenExpect_good h hnc
    intro e r1 h1 he
    apply thenExpect_good h1 (by simp [Closing, he])
    intro v r2 h2 hv
    obtain ⟨vs, t', r', hm, h3, ht'⟩ := moreValues_good h2 hv
    rw [hm]
    apply thenExpect_good h3 (by simp [Closing, ht'])
    intro sm r4 h4 _
    exact h4
  · rename_i hty
    unfold stmtBlock
    apply thenExpect_good h (by simp [Closing, hty])
    intro n r1 h1 hn
    simp only
    have hnc : ¬ Closing n := by simp [Closing, hn]
    obtain ⟨n', r', e, hne, hc'⟩ := h1.cases
    cases e
    rcases hc' with hc' | hc'
    · obtain ⟨x, r2, rfl, hx, -⟩ := hc'.cases
      simp only [tokentN, hne, if_false]
      split
      · rename_i h0; cases h0
      · rename_i hxl
        simp only [Option.some.injEq] at hxl
        simp only [advance, hne, if_false]
        apply thenExpect_good hc' (by simp [Closing, hxl])
        intro m r3 h3 hm
        apply thenExpect_good h3 (by simp [Closing, hm])
        intro rp r4 h4 hrp
        apply thenExpect_good h4 (by simp [Closing, hrp])
        intro l r5 h5 _
        exact h5
      · apply thenExpect_good h1 hnc
        intro l r5 h5 _
        exact h5
    · exact absurd hc'.1 hnc
  · split
    · exact h
    · exact h
  · exact h

theorem advanceTo_closed {s : List Tok} (h : Closed s) :
    ∃ b s', advanceTo s = .at b s' ∧ (Closed s' ∨ ∃ e, s' = [e] ∧ e.ty = .eof) := by
  induction s with
  | nil => obtain ⟨_, _, h, _⟩ := h.cases; cases h
  | cons t r ih =>
    obtain ⟨t', r', e, hne, hc⟩ := h.cases
    cases e
    rcases hc with hc | ⟨hc, e, rfl, he⟩
    · obtain ⟨n, r2, rfl, hn, -⟩ := hc.cases
      rw [advanceTo]
      split
      · exact ⟨true, _, rfl, .inl h⟩
      · exact ih hc
    · rw [advanceTo]
      simp only [he, reduceCtorEq, or_self, if_false, hne, if_true]
      exact ⟨false, [e], rfl, .inr ⟨e, rfl, he⟩⟩

theorem interpLoop_closed_ne_ub (reg : Registry) : ∀ (n : Nat) (st : ISt) (s : List Tok),
    s.length ≤ n → Closed s → interpLoop reg st s ≠ .ub := by
  intro n
  induction n with
  | zero =>
    intro st s hs h
    obtain ⟨_, _, rfl, _⟩ := h.cases
    simp at hs
  | succ n ih =>
    intro st s hs h
    rw [interpLoop_eq]
    have key : ∃ st' s', stmtCatch reg st s = some (st', s') ∧
        (Closed s' ∨ ∃ e, s' = [e] ∧ e.ty = .eof) := by
      have hg := stmt_good reg st h
      unfold stmtCatch
      split
      · rename_i he; rw [he] at hg; exact hg.elim
      · rename_i st' s' he
        rw [he] at hg
        exact ⟨st', s', rfl, .inl hg⟩
      · rename_i st' s' he
        rw [he] at hg
        obtain ⟨b, s'', e, hc⟩ := advanceTo_closed hg
        rw [e]
        exact ⟨_, s'', rfl, hc⟩
    obtain ⟨st', s', e, hc⟩ := key
    rw [e]
    simp only
    have hlen := stmtCatch_length e
    rcases hc with hc | ⟨e', rfl, he⟩
    · obtain ⟨t, r, rfl, ht, hc2⟩ := hc.cases
      rcases hc2 with hc2 | ⟨-, e', rfl, he⟩
      · obtain ⟨x, r2, rfl, hx, -⟩ := hc2.cases
        simp only [advance, ht, if_false, ne_eq, hx, not_false_eq_true, decide_true]
        exact ih st' _ (by simp at hlen hs ⊢; omega) hc2
      · simp only [advance, ht, if_false, he, ne_eq, not_true_eq_false, decide_false]
        split <;> simp
    · simp only [advance, he, if_true]
      split <;> simp

/-! ### Statements cut short -/

theorem thenExpect_eof {ty : TokTy} {st : ISt} {t e : Tok} {r : List Tok} {k : List Tok → StmtRes}
    (ht : t.ty ≠ .eof) (he : e.ty = .eof) :
    thenExpect ty st (t :: e :: r) k = .exn st (e :: r) := by
  simp [thenExpect, expect, advance, ht, he]

theorem stmtCatch_none_of_exn {reg : Registry} {st st' : ISt} {s : List Tok} {e : Tok}
    (h : stmt reg st s = .exn st' [e]) : stmtCatch reg st s = none := by
  simp [stmtCatch, h, advanceTo]

/-- A non-empty proper prefix of a statement, followed by EOF, makes the interpreter read
past the end. -/
theorem stmt_cut (reg : Registry) (st : ISt) {u part more : List Tok} {d d' : Nat} {e : Tok}
    (h : Stmt1 d u d') (hu : u = part ++ more) (hp : part ≠ []) (hm : more ≠ []) (he : e.ty = .eof) :
    ∃ st', stmt reg st (part ++ [e]) = .exn st' [e] := by
  cases h with
  | @setting _ n q v vs s hn hq hv hvs hs =>
    match part, hp with
    | [a], _ =>
      simp only [List.cons_append, List.nil_append, List.cons.injEq] at hu
      obtain ⟨rfl, -⟩ := hu
      refine ⟨st, ?_⟩
      simp only [List.cons_append, List.nil_append, stmt, hn, stmtName]
      rw [thenExpect_eof (by simp [hn]) he]
    | [a, b], _ =>
      simp only [List.cons_append, List.nil_append, List.cons.injEq] at hu
      obtain ⟨rfl, rfl, -⟩ := hu
      refine ⟨st, ?_⟩
      simp only [List.cons_append, List.nil_append, stmt, hn, stmtName]
      rw [thenExpect_hit (by simp [hn]) hq (by simp), thenExpect_eof (by simp [hq]) he]
    | a :: b :: c :: ws, _ =>
      simp only [List.cons_append, List.cons.injEq] at hu
      obtain ⟨rfl, rfl, rfl, hu⟩ := hu
      have hws : ∀ x ∈ ws, x.ty = .value := by
        rcases List.eq_nil_or_concat more with rfl | ⟨m', y, rfl⟩
        · exact absurd rfl hm
        · rw [List.concat_eq_append, ← List.append_assoc] at hu
          obtain ⟨h1, -⟩ := List.append_inj' hu rfl
          intro x hx
          exact hvs x (by rw [h1]; simp [hx])
      have hlast : ((v :: ws).getLast (by simp)).ty ≠ .eof := by
        have : (v :: ws).getLast (by simp) ∈ v :: ws := List.getLast_mem _
        rcases List.mem_cons.1 this with h | h
        · rw [h, hv]; simp
        · rw [hws _ h]; simp
      simp only [List.cons_append, stmt, hn, stmtName]
      rw [thenExpect_hit (by simp [hn]) hq (by simp), thenExpect_hit (by simp [hq]) hv (by simp),
        moreValues_all hv hws (by simp [he])]
      simp only
      rw [thenExpect_eof hlast he]
      exact ⟨_, rfl⟩
  | @openBlock _ t n l ht hn hl =>
    match part, hp with
    | [a], _ =>
      simp only [List.cons_append, List.nil_append, List.cons.injEq] at hu
      obtain ⟨rfl, -⟩ := hu
      refine ⟨st, ?_⟩
      simp only [List.cons_append, List.nil_append, stmt, ht, stmtBlock]
      rw [thenExpect_eof (by simp [ht]) he]
    | [a, b], _ =>
      simp only [List.cons_append, List.nil_append, List.cons.injEq] at hu
      obtain ⟨rfl, rfl, -⟩ := hu
      refine ⟨st, ?_⟩
      simp only [List.cons_append, List.nil_append, stmt, ht, stmtBlock]
      rw [thenExpect_hit (by simp [ht]) hn (by simp)]
      simp only [tokentN, hn, he]
      simp only [reduceCtorEq, if_false]
      rw [thenExpect_eof (by simp [hn]) he]
    | a :: b :: c :: ws, _ =>
      simp only [List.cons_append, List.cons.injEq] at hu
      obtain ⟨rfl, rfl, rfl, hu⟩ := hu
      have := List.append_eq_nil_iff.1 hu.symm
      exact absurd this.2 hm
  | @openBlockSec _ t n lp m rp l ht hn hlp hmm hrp hl =>
    match part, hp with
    | [a], _ =>
      simp only [List.cons_append, List.nil_append, List.cons.injEq] at hu
      obtain ⟨rfl, -⟩ := hu
      refine ⟨st, ?_⟩
      simp only [List.cons_append, List.nil_append, stmt, ht, stmtBlock]
      rw [thenExpect_eof (by simp [ht]) he]
    | [a, b], _ =>
      simp only [List.cons_append, List.nil_append, List.cons.injEq] at hu
      obtain ⟨rfl, rfl, -⟩ := hu
      refine ⟨st, ?_⟩
      simp only [List.cons_append, List.nil_append, stmt, ht, stmtBlock]
      rw [thenExpect_hit (by simp [ht]) hn (by simp)]
      simp only [tokentN, hn, he]
      simp only [reduceCtorEq, if_false]
      rw [thenExpect_eof (by simp [hn]) he]
    | [a, b, c], _ =>
      simp only [List.cons_append, List.nil_append, List.cons.injEq] at hu
      obtain ⟨rfl, rfl, rfl, -⟩ := hu
      refine ⟨st, ?_⟩
      simp only [List.cons_append, List.nil_append, stmt, ht, stmtBlock]
      rw [thenExpect_hit (by simp [ht]) hn (by simp)]
      simp only [tokentN, hn, hlp, advance]
      simp only [reduceCtorEq, if_false]
      rw [thenExpect_eof (by simp [hlp]) he]
    | [a, b, c, x], _ =>
      simp only [List.cons_append, List.nil_append, List.cons.injEq] at hu
      obtain ⟨rfl, rfl, rfl, rfl, -⟩ := hu
      refine ⟨st, ?_⟩
      simp only [List.cons_append, List.nil_append, stmt, ht, stmtBlock]
      rw [thenExpect_hit (by simp [ht]) hn (by simp)]
      simp only [tokentN, hn, hlp, advance]
      simp only [reduceCtorEq, if_false]
      rw [thenExpect_hit (by simp [hlp]) hmm (by simp), thenExpect_eof (by simp [hmm]) he]
    | [a, b, c, x, y], _ =>
      simp only [List.cons_append, List.nil_append, List.cons.injEq] at hu
      obtain ⟨rfl, rfl, rfl, rfl, rfl, -⟩ := hu
      refine ⟨st, ?_⟩
      simp only [List.cons_append, List.nil_append, stmt, ht, stmtBlock]
      rw [thenExpect_hit (by simp [ht]) hn (by simp)]
      simp only [tokentN, hn, hlp, advance]
      simp only [reduceCtorEq, if_false]
      rw [thenExpect_hit (by simp [hlp]) hmm (by simp), thenExpect_hit (by simp [hmm]) hrp (by simp),
        thenExpect_eof (by simp [hrp]) he]
    | a :: b :: c :: x :: y :: z :: ws, _ =>
      simp only [List.cons_append, List.cons.injEq] at hu
      obtain ⟨rfl, rfl, rfl, rfl, rfl, rfl, hu⟩ := hu
      have := List.append_eq_nil_iff.1 hu.symm
      exact absurd this.2 hm
  | closeBlock hc =>
    match part, hp with
    | a :: ws, _ =>
      simp only [List.cons_append, List.cons.injEq] at hu
      have := List.append_eq_nil_iff.1 hu.2.symm
      exact absurd this.2 hm

end Softlib.Config
