/-
C83: which errors the interpreter reports, and where it carries on.
-/
import Verif.Config.ErrModel
import Verif.Config.InterpLemmas
import Verif.Config.LexProps

namespace Softlib.Config

/-! ### Specification -/

/-- `p` is the beginning of a statement (possibly all of it) at depth `d`. -/
def Begins (d : Nat) (p : List Tok) : Prop := ∃ more d', Stmt1 d (p ++ more) d'

/-- `p` is the beginning of a statement at depth `d`, but not all of it. -/
def Unfinished (d : Nat) (p : List Tok) : Prop := ∃ more d', more ≠ [] ∧ Stmt1 d (p ++ more) d'

/-- Tokens at which the interpreter carries on after an error. -/
def Starts (t : Tok) : Prop := t.ty = .name ∨ t.ty = .blocktype ∨ t.ty = .blockEnd

/-- `w` is the first token (type) of the shortest way to complete the beginning `p`. -/
def Wanted (d : Nat) (p : List Tok) (w : TokTy) : Prop :=
  ∃ x more d', x.ty = w ∧ Stmt1 d (p ++ x :: more) d' ∧
    ∀ more' d'', Stmt1 d (p ++ more') d'' → more.length + 1 ≤ more'.length

/-- The message for the token `t` after the beginning `p` of a statement. -/
def MsgFor (d : Nat) (p : List Tok) (t : Tok) (m : Msg) : Prop :=
  (p = [] ∧ t.ty = .blockEnd ∧ m = .brace) ∨ (p = [] ∧ t.ty ≠ .blockEnd ∧ m = .start t.ty) ∨
  (p ≠ [] ∧ ∃ w, Wanted d p w ∧ m = .expected w t.ty)

/-- A stream of tokens, read from the token with index `k` at depth `d`: statements, and errors.
The first token `t` that cannot continue a statement is reported, then everything up to the next
token that can start a statement is skipped. -/
inductive Recover : Nat → Nat → List Tok → List (Nat × Msg) → Nat → Prop
  | nil {k d : Nat} : Recover k d [] [] d
  | good {k d d' e : Nat} {u us : List Tok} {log : List (Nat × Msg)} (h : Stmt1 d u d')
      (hr : Recover (k + u.length) d' us log e) : Recover k d (u ++ us) log e
  | bad {k d e : Nat} {p sk us : List Tok} {t : Tok} {m : Msg} {log : List (Nat × Msg)}
      (hp : Unfinished d p) (ht : ¬ Begins d (p ++ [t])) (hm : MsgFor d p t m)
      (hs : ∀ x ∈ sk, ¬ Starts x) (hu : ∀ x, us.head? = some x → Starts x)
      (hr : Recover (k + (p.length + 1 + sk.length)) d us log e) :
      Recover k d (p ++ t :: (sk ++ us)) ((k + p.length, m) :: log) e

/-! ### Beginnings of statements -/

/-- The beginnings of statements and the type of the token that must come next. -/
inductive Shape : List Tok → TokTy → Prop
  | n {n : Tok} : n.ty = .name → Shape [n] .equals
  | ne {n e : Tok} : n.ty = .name → e.ty = .equals → Shape [n, e] .value
  | nev {n e v : Tok} {vs : List Tok} : n.ty = .name → e.ty = .equals → v.ty = .value →
      (∀ x ∈ vs, x.ty = .value) → Shape (n :: e :: v :: vs) .endStatement
  | t {t : Tok} : t.ty = .blocktype → Shape [t] .blockname
  | tn {t n : Tok} : t.ty = .blocktype → n.ty = .blockname → Shape [t, n] .blockStart
  | tnl {t n l : Tok} : t.ty = .blocktype → n.ty = .blockname → l.ty = .lpar →
      Shape [t, n, l] .name
  | tnlm {t n l m : Tok} : t.ty = .blocktype → n.ty = .blockname → l.ty = .lpar →
      m.ty = .name → Shape [t, n, l, m] .rpar
  | tnlmr {t n l m r : Tok} : t.ty = .blocktype → n.ty = .blockname → l.ty = .lpar →
      m.ty = .name → r.ty = .rpar → Shape [t, n, l, m, r] .blockStart

theorem Unfinished.shape {d : Nat} {p : List Tok} (h : Unfinished d p) (hp : p ≠ []) :
    ∃ w, Shape p w := by
  obtain ⟨more, d', hm, h⟩ := h
  generalize hu : p ++ more = u at h
  cases h with
  | @setting _ n e v vs s hn he hv hvs hs =>
    match p, hp with
    | [a], _ =>
      simp only [List.cons_append, List.nil_append, List.cons.injEq] at hu
      exact ⟨_, .n (by rw [hu.1]; exact hn)⟩
    | [a, b], _ =>
      simp only [List.cons_append, List.nil_append, List.cons.injEq] at hu
      exact ⟨_, .ne (by rw [hu.1]; exact hn) (by rw [hu.2.1]; exact he)⟩
    | a :: b :: c :: ws, _ =>
      simp only [List.cons_append, List.cons.injEq] at hu
      obtain ⟨rfl, rfl, rfl, hu⟩ := hu
      refine ⟨_, .nev hn he hv ?_⟩
      rcases List.eq_nil_or_concat more with rfl | ⟨m', y, rfl⟩
      · exact absurd rfl hm
      · rw [List.concat_eq_append, ← List.append_assoc] at hu
        obtain ⟨h1, -⟩ := List.append_inj' hu rfl
        intro x hx
        exact hvs x (by rw [← h1]; simp [hx])
  | @openBlock _ t n l ht hn hl =>
    match p, hp with
    | [a], _ =>
      simp only [List.cons_append, List.nil_append, List.cons.injEq] at hu
      exact ⟨_, .t (by rw [hu.1]; exact ht)⟩
    | [a, b], _ =>
      simp only [List.cons_append, List.nil_append, List.cons.injEq] at hu
      exact ⟨_, .tn (by rw [hu.1]; exact ht) (by rw [hu.2.1]; exact hn)⟩
    | a :: b :: c :: ws, _ =>
      simp only [List.cons_append, List.cons.injEq] at hu
      exact absurd (List.append_eq_nil_iff.1 hu.2.2.2).2 hm
  | @openBlockSec _ t n lp m rp l ht hn hlp hmm hrp hl =>
    match p, hp with
    | [a], _ =>
      simp only [List.cons_append, List.nil_append, List.cons.injEq] at hu
      exact ⟨_, .t (by rw [hu.1]; exact ht)⟩
    | [a, b], _ =>
      simp only [List.cons_append, List.nil_append, List.cons.injEq] at hu
      exact ⟨_, .tn (by rw [hu.1]; exact ht) (by rw [hu.2.1]; exact hn)⟩
    | [a, b, c], _ =>
      simp only [List.cons_append, List.nil_append, List.cons.injEq] at hu
      exact ⟨_, .tnl (by rw [hu.1]; exact ht) (by rw [hu.2.1]; exact hn)
        (by rw [hu.2.2.1]; exact hlp)⟩
    | [a, b, c, x], _ =>
      simp only [List.cons_append, List.nil_append, List.cons.injEq] at hu
      exact ⟨_, .tnlm (by rw [hu.1]; exact ht) (by rw [hu.2.1]; exact hn)
        (by rw [hu.2.2.1]; exact hlp) (by rw [hu.2.2.2.1]; exact hmm)⟩
    | [a, b, c, x, y], _ =>
      simp only [List.cons_append, List.nil_append, List.cons.injEq] at hu
      exact ⟨_, .tnlmr (by rw [hu.1]; exact ht) (by rw [hu.2.1]; exact hn)
        (by rw [hu.2.2.1]; exact hlp) (by rw [hu.2.2.2.1]; exact hmm)
        (by rw [hu.2.2.2.2.1]; exact hrp)⟩
    | a :: b :: c :: x :: y :: z :: ws, _ =>
      simp only [List.cons_append, List.cons.injEq] at hu
      exact absurd (List.append_eq_nil_iff.1 hu.2.2.2.2.2.2).2 hm
  | @closeBlock _ c hc =>
    match p, hp with
    | a :: ws, _ =>
      simp only [List.cons_append, List.cons.injEq] at hu
      exact absurd (List.append_eq_nil_iff.1 hu.2).2 hm

/-- The tokens needed to complete a beginning. -/
theorem Shape.complete {d : Nat} {p : List Tok} {w : TokTy} (h : Shape p w) {x : Tok}
    (hx : x.ty = w) : ∃ more d', Stmt1 d (p ++ x :: more) d' ∧
      ∀ more' d'', Stmt1 d (p ++ more') d'' → more.length + 1 ≤ more'.length := by
  have lb : ∀ {q : List Tok} {k : Nat}, (∀ u d'', Stmt1 d u d'' → q <+: u → q.length + k ≤ u.length) →
      ∀ more' d'', Stmt1 d (q ++ more') d'' → k ≤ more'.length := by
    intro q k hq more' d'' hs
    have := hq _ _ hs (List.prefix_append _ _)
    rw [List.length_append] at this
    omega
  cases h with
  | n hn =>
    refine ⟨[⟨.value, []⟩, ⟨.endStatement, []⟩], _, .setting (vs := []) hn hx rfl (by simp) rfl,
      lb ?_⟩
    intro u d'' hs hpre
    cases hs <;> simp_all
  | ne hn he =>
    refine ⟨[⟨.endStatement, []⟩], _, .setting (vs := []) hn he hx (by simp) rfl, lb ?_⟩
    intro u d'' hs hpre
    cases hs <;> simp_all
  | @nev n e v vs hn he hv hvs =>
    refine ⟨[], _, .setting (vs := vs) hn he hv hvs hx, ?_⟩
    intro more' d'' hs
    cases more' with
    | cons a b => simp
    | nil =>
      exfalso
      rw [List.append_nil] at hs
      generalize hu : n :: e :: v :: vs = u at hs
      cases hs with
      | @setting _ n e v' vs' s hn he hv hvs' hs =>
        simp only [List.cons.injEq] at hu
        obtain ⟨-, -, -, rfl⟩ := hu
        have := hvs s (by simp)
        rw [this] at hs
        cases hs
      | openBlock h1 h2 h3 => simp only [List.cons.injEq] at hu; simp_all
      | openBlockSec h1 h2 h3 => simp only [List.cons.injEq] at hu; simp_all
      | closeBlock h1 => simp at hu
  | t ht =>
    refine ⟨[⟨.blockStart, []⟩], _, .openBlock ht hx rfl, lb ?_⟩
    intro u d'' hs hpre
    cases hs <;> simp_all
  | tn ht hn =>
    refine ⟨[], _, .openBlock ht hn hx, lb ?_⟩
    intro u d'' hs hpre
    cases hs <;> simp_all
  | tnl ht hn hl =>
    refine ⟨[⟨.rpar, []⟩, ⟨.blockStart, []⟩], _, .openBlockSec ht hn hl hx rfl rfl, lb ?_⟩
    intro u d'' hs hpre
    cases hs <;> simp_all
  | tnlm ht hn hl hm =>
    refine ⟨[⟨.blockStart, []⟩], _, .openBlockSec ht hn hl hm hx rfl, lb ?_⟩
    intro u d'' hs hpre
    cases hs <;> simp_all
  | tnlmr ht hn hl hm hr =>
    refine ⟨[], _, .openBlockSec ht hn hl hm hr hx, lb ?_⟩
    intro u d'' hs hpre
    cases hs <;> simp_all

theorem Shape.wanted {d : Nat} {p : List Tok} {w : TokTy} (h : Shape p w) : Wanted d p w := by
  obtain ⟨more, d', h1, h2⟩ := h.complete (d := d) (x := ⟨w, []⟩) rfl
  exact ⟨_, more, d', rfl, h1, h2⟩

/-- The first token of a shortest completion has the type wanted. -/
theorem Shape.first {d d' : Nat} {p more : List Tok} {w : TokTy} {x : Tok} (h : Shape p w)
    (hs : Stmt1 d (p ++ x :: more) d') (hl : w = .endStatement ∨ w = .blockStart → more = []) :
    x.ty = w := by
  generalize hu : p ++ x :: more = u at hs
  cases h with
  | nev hn he hv hvs =>
    rw [hl (Or.inl rfl)] at hu
    cases hs with
    | @setting _ n e v' vs' s hn he hv hvs' hs =>
      simp only [List.cons_append, List.cons.injEq] at hu
      have := (List.append_inj' hu.2.2.2 rfl).2
      simp only [List.cons.injEq] at this
      rw [this.1]; exact hs
    | openBlock h1 h2 h3 => simp only [List.cons_append, List.cons.injEq] at hu; simp_all
    | openBlockSec h1 h2 h3 => simp only [List.cons_append, List.cons.injEq] at hu; simp_all
    | closeBlock h1 => simp at hu
  | tn =>
    rw [hl (Or.inr rfl)] at hu
    cases hs <;> simp_all
  | tnlmr =>
    rw [hl (Or.inr rfl)] at hu
    cases hs <;> simp_all
  | _ =>
    clear hl
    cases hs <;> simp_all

/-- The wanted token is unique. -/
theorem Shape.wanted_unique {d : Nat} {p : List Tok} {w w' : TokTy} (h : Shape p w)
    (hw : Wanted d p w') : w' = w := by
  obtain ⟨x, more, d', hx, h1, h2⟩ := hw
  rw [← hx]
  refine h.first h1 ?_
  intro hc
  obtain ⟨more0, d0, h3, -⟩ := h.complete (d := d) (x := ⟨w, []⟩) rfl
  have : ∃ more0 d0, Stmt1 d (p ++ ⟨w, []⟩ :: more0) d0 ∧ more0.length = 0 := by
    cases h with
    | nev hn he hv hvs => exact ⟨[], _, .setting hn he hv hvs rfl, rfl⟩
    | tn q1 q2 => exact ⟨[], _, .openBlock q1 q2 rfl, rfl⟩
    | tnlmr q1 q2 q3 q4 q5 => exact ⟨[], _, .openBlockSec q1 q2 q3 q4 q5 rfl, rfl⟩
    | _ => simp at hc
  obtain ⟨m0, d1, h5, h6⟩ := this
  have := h2 _ _ h5
  rw [List.length_cons, h6] at this
  exact List.length_eq_zero_iff.1 (by omega)

/-! ### What one pass through the loop does -/

theorem thenExpectL_hit {ty : TokTy} {st : ISt} {t n : Tok} {r : List Tok}
    {k : List Tok → StmtResL} (ht : t.ty ≠ .eof) (hn : n.ty = ty) (hty : ty ≠ .eof) :
    thenExpectL ty st (t :: n :: r) k = k (n :: r) := by
  have : n.ty ≠ .eof := by rw [hn]; exact hty
  simp [thenExpectL, expect, advance, ht, hn, hty]

theorem thenExpectL_miss {ty : TokTy} {st : ISt} {t n : Tok} {r : List Tok}
    {k : List Tok → StmtResL} (ht : t.ty ≠ .eof) (hn : n.ty ≠ ty) :
    thenExpectL ty st (t :: n :: r) k = .exn st (n :: r) (.expected ty n.ty) := by
  by_cases he : n.ty = .eof <;> simp [thenExpectL, expect, advance, ht, hn, he, curTy]

/-- A token that does not fit is reported, with the type wanted; the open blocks stay. -/
theorem stmtL_miss (reg : Registry) (st : ISt) {p : List Tok} {w : TokTy} (h : Shape p w)
    {x : Tok} (hx : x.ty ≠ w) (hv : w = .endStatement → x.ty ≠ .value)
    (hl : ∀ a b, p = [a, b] → w = .blockStart → x.ty ≠ .lpar) (r : List Tok) :
    ∃ st', stmtL reg st (p ++ x :: r) = .exn st' (x :: r) (.expected w x.ty) ∧
      st'.path = st.path ∧ st'.err = st.err := by
  cases h with
  | n hn =>
    refine ⟨st, ?_, rfl, rfl⟩
    simp only [List.cons_append, List.nil_append, stmtL, hn, stmtNameL]
    exact thenExpectL_miss (by simp [hn]) hx
  | ne hn he =>
    refine ⟨st, ?_, rfl, rfl⟩
    simp only [List.cons_append, List.nil_append, stmtL, hn, stmtNameL]
    rw [thenExpectL_hit (by simp [hn]) he (by simp)]
    exact thenExpectL_miss (by simp [he]) hx
  | @nev n e v vs hn he hv' hvs =>
    have hlast : ((v :: vs).getLast (by simp)).ty ≠ .eof := by
      have : (v :: vs).getLast (by simp) ∈ v :: vs := List.getLast_mem _
      rcases List.mem_cons.1 this with h | h
      · rw [h, hv']; simp
      · rw [hvs _ h]; simp
    simp only [List.cons_append, stmtL, hn, stmtNameL]
    rw [thenExpectL_hit (by simp [hn]) he (by simp), thenExpectL_hit (by simp [he]) hv' (by simp),
      moreValues_all hv' hvs (hv rfl)]
    simp only
    rw [thenExpectL_miss hlast hx]
    exact ⟨_, rfl, rfl, rfl⟩
  | t ht =>
    refine ⟨st, ?_, rfl, rfl⟩
    simp only [List.cons_append, List.nil_append, stmtL, ht, stmtBlockL]
    exact thenExpectL_miss (by simp [ht]) hx
  | tn ht hn =>
    refine ⟨st, ?_, rfl, rfl⟩
    simp only [List.cons_append, List.nil_append, stmtL, ht, stmtBlockL]
    rw [thenExpectL_hit (by simp [ht]) hn (by simp)]
    have := hl _ _ rfl rfl
    simp only [tokentN, hn]
    simp only [reduceCtorEq, if_false, this]
    exact thenExpectL_miss (by simp [hn]) hx
  | tnl ht hn hl' =>
    refine ⟨st, ?_, rfl, rfl⟩
    simp only [List.cons_append, List.nil_append, stmtL, ht, stmtBlockL]
    rw [thenExpectL_hit (by simp [ht]) hn (by simp)]
    simp only [tokentN, hn, hl', advance]
    simp only [reduceCtorEq, if_false]
    exact thenExpectL_miss (by simp [hl']) hx
  | tnlm ht hn hl' hm =>
    refine ⟨st, ?_, rfl, rfl⟩
    simp only [List.cons_append, List.nil_append, stmtL, ht, stmtBlockL]
    rw [thenExpectL_hit (by simp [ht]) hn (by simp)]
    simp only [tokentN, hn, hl', advance]
    simp only [reduceCtorEq, if_false]
    rw [thenExpectL_hit (by simp [hl']) hm (by simp)]
    exact thenExpectL_miss (by simp [hm]) hx
  | tnlmr ht hn hl' hm hr =>
    refine ⟨st, ?_, rfl, rfl⟩
    simp only [List.cons_append, List.nil_append, stmtL, ht, stmtBlockL]
    rw [thenExpectL_hit (by simp [ht]) hn (by simp)]
    simp only [tokentN, hn, hl', advance]
    simp only [reduceCtorEq, if_false]
    rw [thenExpectL_hit (by simp [hl']) hm (by simp), thenExpectL_hit (by simp [hm]) hr (by simp)]
    exact thenExpectL_miss (by simp [hr]) hx

/-- What continues a beginning. -/
theorem Shape.begins {d : Nat} {p : List Tok} {w : TokTy} (h : Shape p w) {x : Tok}
    (hx : x.ty = w ∨ (w = .endStatement ∧ x.ty = .value) ∨
      (∃ a b, p = [a, b] ∧ w = .blockStart ∧ x.ty = .lpar)) : Begins d (p ++ [x]) := by
  rcases hx with hx | ⟨rfl, hx⟩ | ⟨a, b, rfl, rfl, hx⟩
  · obtain ⟨more, d', h1, -⟩ := h.complete (d := d) hx
    exact ⟨more, d', by simpa using h1⟩
  · cases h with
    | @nev n e v vs hn he hv hvs =>
      refine ⟨[⟨.endStatement, []⟩], d, ?_⟩
      have := Stmt1.setting (d := d) (vs := vs ++ [x]) (s := ⟨.endStatement, []⟩) hn he hv
        (by intro y hy; rcases List.mem_append.1 hy with hy | hy
            · exact hvs y hy
            · rw [List.mem_singleton.1 hy]; exact hx) rfl
      simpa using this
  · cases h with
    | tn ht hn =>
      exact ⟨[⟨.name, []⟩, ⟨.rpar, []⟩, ⟨.blockStart, []⟩], d + 1,
        .openBlockSec ht hn hx rfl rfl rfl⟩

/-- An error after a beginning (or the end of the stream there). -/
theorem stmtL_bad (reg : Registry) (st : ISt) {p : List Tok} {x : Tok} {m : Msg}
    (hp : Unfinished st.path.length p) (hx : ¬ Begins st.path.length (p ++ [x]))
    (hm : MsgFor st.path.length p x m) (r : List Tok) :
    ∃ st', stmtL reg st (p ++ x :: r) = .exn st' (x :: r) m ∧ st'.path = st.path ∧
      st'.err = st.err := by
  rcases hm with ⟨rfl, hb, rfl⟩ | ⟨rfl, hb, rfl⟩ | ⟨hne, w, hw, rfl⟩
  · refine ⟨st, ?_, rfl, rfl⟩
    have h0 : st.path = [] := by
      cases hpath : st.path with
      | nil => rfl
      | cons a b =>
        exfalso
        rw [hpath] at hx
        exact hx ⟨[], b.length, by simpa using Stmt1.closeBlock hb⟩
    simp [stmtL, hb, h0]
  · refine ⟨st, ?_, rfl, rfl⟩
    have h1 : x.ty ≠ .name := by
      intro h
      exact hx ⟨[⟨.equals, []⟩, ⟨.value, []⟩, ⟨.endStatement, []⟩], _,
        .setting (vs := []) h rfl rfl (by simp) rfl⟩
    have h2 : x.ty ≠ .blocktype := by
      intro h
      exact hx ⟨[⟨.blockname, []⟩, ⟨.blockStart, []⟩], _, .openBlock h rfl rfl⟩
    simp only [List.nil_append, stmtL]
  · obtain ⟨w', hs⟩ := hp.shape hne
    have := hs.wanted_unique hw
    subst this
    exact stmtL_miss reg st hs (fun h => hx (hs.begins (Or.inl h)))
      (fun h1 h2 => hx (hs.begins (Or.inr (Or.inl ⟨h1, h2⟩))))
      (fun a b h1 h2 h3 => hx (hs.begins (Or.inr (Or.inr ⟨a, b, h1, h2, h3⟩)))) r

theorem advanceTo_skip {t : Tok} {sk : List Tok} {r : List Tok} {n : Tok} (ht : t.ty ≠ .eof)
    (hsk : ∀ x ∈ sk, ¬ Starts x ∧ x.ty ≠ .eof) (hn : Starts n ∨ n.ty = .eof) :
    ∃ l, l.ty ≠ .eof ∧ advanceTo (t :: (sk ++ n :: r)) =
      if n.ty = .eof then .at false (n :: r) else .at true (l :: n :: r) := by
  induction sk generalizing t with
  | nil =>
    refine ⟨t, ht, ?_⟩
    rw [List.nil_append, advanceTo]
    rcases hn with hn | hn
    · rw [if_pos (show n.ty = .name ∨ n.ty = .blocktype ∨ n.ty = .blockEnd from hn)]
      rw [if_neg (by rcases hn with h | h | h <;> simp [h])]
    · rw [if_neg (by simp [hn]), if_neg ht, if_pos hn, if_pos hn]
  | cons y sk ih =>
    have hy := hsk y (by simp)
    obtain ⟨l, hl, e⟩ := ih hy.2 (fun x hx => hsk x (by simp [hx]))
    refine ⟨l, hl, ?_⟩
    rw [List.cons_append, advanceTo,
      if_neg (show ¬ (y.ty = .name ∨ y.ty = .blocktype ∨ y.ty = .blockEnd) from hy.1), if_neg ht, if_neg hy.2]
    exact e

/-- What happens between statements. -/
def contL (reg : Registry) (total : Nat) (log : List (Nat × Msg)) (st : ISt) : List Tok → IResL
  | [] => .ub
  | t :: r =>
    if t.ty = .eof then
      (if st.path = [] then .ok st.root st.err log
        else .thrown (total - (t :: r).length) log)
    else interpLoopL reg total log st (t :: r)

theorem interpLoopL_ok {reg : Registry} {total : Nat} {log : List (Nat × Msg)} {st st' : ISt}
    {s rest : List Tok} {l : Tok} (h : stmtL reg st s = .ok st' (l :: rest)) (hl : l.ty ≠ .eof) :
    interpLoopL reg total log st s = contL reg total log st' rest := by
  rw [interpLoopL_eq]
  simp only [stmtCatchL, h]
  cases rest with
  | nil => simp [advance, hl, contL]
  | cons n r => by_cases hn : n.ty = .eof <;> simp [advance, hl, contL, hn]

theorem interpLoopL_exn {reg : Registry} {total : Nat} {log : List (Nat × Msg)} {st st' : ISt}
    {s sk rest : List Tok} {t n : Tok} {m : Msg}
    (h : stmtL reg st s = .exn st' (t :: (sk ++ n :: rest)) m) (ht : t.ty ≠ .eof)
    (hsk : ∀ x ∈ sk, ¬ Starts x ∧ x.ty ≠ .eof) (hn : Starts n ∨ n.ty = .eof) :
    interpLoopL reg total log st s =
      contL reg total (log ++ [(total - (t :: (sk ++ n :: rest)).length, m)])
        { st' with err := true } (n :: rest) := by
  obtain ⟨l, hl, e⟩ := advanceTo_skip (r := rest) ht hsk hn
  rw [interpLoopL_eq]
  simp only [stmtCatchL, h, e]
  by_cases hne : n.ty = .eof
  · simp [hne, advance, contL]
  · simp [hne, advance, contL, hl]

theorem stmtL_of_Stmt1 (reg : Registry) (st : ISt) {u rest : List Tok} {d : Nat}
    (h : Stmt1 st.path.length u d) :
    ∃ st' l, stmtL reg st (u ++ rest) = .ok st' (l :: rest) ∧ l.ty ≠ .eof ∧
      st'.path.length = d ∧ st'.err = st.err := by
  obtain ⟨st', l, h1, h2⟩ := stmt_of_Stmt1 reg st (rest := rest) h
  rw [← stmtL_erase] at h1
  refine ⟨st', l, ?_, h2⟩
  cases hr : stmtL reg st (u ++ rest) with
  | ub => rw [hr] at h1; cases h1
  | exn => rw [hr] at h1; cases h1
  | ok a b => rw [hr] at h1; cases h1; rfl

theorem Unfinished.no_eof {d : Nat} {p : List Tok} (h : Unfinished d p) :
    ∀ t ∈ p, t.ty ≠ .eof := by
  obtain ⟨more, d', -, h⟩ := h
  intro t ht
  exact h.no_eof t (List.mem_append_left _ ht)

/-- Running through a stream. -/
theorem contL_recover (reg : Registry) {k d e total : Nat} {us : List Tok}
    {errs : List (Nat × Msg)} (h : Recover k d us errs e) :
    ∀ (st : ISt) (log : List (Nat × Msg)) (n : Tok) (rest : List Tok), st.path.length = d →
      (∀ t ∈ us, t.ty ≠ .eof) → (Starts n ∨ n.ty = .eof) →
      total = k + us.length + (n :: rest).length →
      ∃ st', contL reg total log st (us ++ n :: rest) =
        contL reg total (log ++ errs) st' (n :: rest) ∧
        st'.path.length = e ∧ st'.err = (st.err || !errs.isEmpty) := by
  induction h with
  | nil => intro st log n rest hd _ _ _; exact ⟨st, by simp, hd, by simp⟩
  | @good k d d' e u us errs h hr ih =>
    intro st log n rest hd hno hn htot
    subst hd
    obtain ⟨st1, l, h1, h2, h3, h4⟩ := stmtL_of_Stmt1 reg st (rest := us ++ n :: rest) h
    obtain ⟨st2, h5, h6, h7⟩ := ih st1 log n rest h3 (fun t ht => hno t (by simp [ht])) hn
      (by rw [htot, List.length_append]; omega)
    refine ⟨st2, ?_, h6, by rw [h7, h4]⟩
    rw [← h5, ← interpLoopL_ok h1 h2]
    cases u with
    | nil => exact absurd rfl h.ne_nil
    | cons t u =>
      have := hno t (by simp)
      simp [contL, this]
  | @bad k d e p sk us t m errs hp ht hm hs hu hr ih =>
    intro st log n rest hd hno hn htot
    subst hd
    obtain ⟨st1, h1, h2, h3⟩ := stmtL_bad reg st hp ht hm (sk ++ (us ++ n :: rest))
    have hte : t.ty ≠ .eof := hno t (by simp)
    have hske : ∀ x ∈ sk, ¬ Starts x ∧ x.ty ≠ .eof :=
      fun x hx => ⟨hs x hx, hno x (by simp [hx])⟩
    obtain ⟨n', rest', hnr, hn'⟩ : ∃ n' rest', us ++ n :: rest = n' :: rest' ∧
        (Starts n' ∨ n'.ty = .eof) := by
      cases us with
      | nil => exact ⟨n, rest, rfl, hn⟩
      | cons y ys => exact ⟨y, ys ++ n :: rest, rfl, Or.inl (hu y rfl)⟩
    have hrun : interpLoopL reg total log st (p ++ t :: (sk ++ (us ++ n :: rest))) =
        contL reg total (log ++ [(k + p.length, m)]) { st1 with err := true }
          (us ++ n :: rest) := by
      rw [hnr] at h1 ⊢
      rw [interpLoopL_exn h1 hte hske hn']
      have : total - (t :: (sk ++ n' :: rest')).length = k + p.length := by
        have hl := congrArg List.length hnr
        simp only [List.length_append, List.length_cons] at hl htot ⊢
        omega
      rw [this]
    obtain ⟨st2, h5, h6, h7⟩ := ih { st1 with err := true } (log ++ [(k + p.length, m)]) n rest
      (by simp [h2]) (fun t ht => hno t (by simp [ht])) hn
      (by rw [htot]; simp only [List.length_append, List.length_cons]; omega)
    refine ⟨st2, ?_, h6, by rw [h7]; simp⟩
    rw [List.append_assoc] at h5
    rw [show log ++ (k + p.length, m) :: errs = log ++ ([(k + p.length, m)] ++ errs) by simp,
      ← h5, ← hrun]
    have hassoc : p ++ t :: (sk ++ us) ++ n :: rest = p ++ t :: (sk ++ (us ++ n :: rest)) := by
      simp
    rw [hassoc]
    cases p with
    | nil => simp [contL, hte]
    | cons y ys =>
      have := hp.no_eof y (by simp)
      simp [contL, this]

/-- The end of the stream within a statement. -/
theorem contL_cut (reg : Registry) (total : Nat) (log : List (Nat × Msg)) (st : ISt)
    {p : List Tok} {e : Tok} (hp : Unfinished st.path.length p) (hne : p ≠ []) (he : e.ty = .eof) :
    contL reg total log st (p ++ [e]) = .ub := by
  obtain ⟨w, hs⟩ := hp.shape hne
  have hx : ¬ Begins st.path.length (p ++ [e]) := by
    rintro ⟨more, d', h⟩
    exact h.no_eof e (by simp) he
  obtain ⟨st1, h1, -, -⟩ := stmtL_bad reg st hp hx (Or.inr (Or.inr ⟨hne, w, hs.wanted, rfl⟩)) []
  cases p with
  | nil => exact absurd rfl hne
  | cons y ys =>
    have := hp.no_eof y (by simp)
    rw [List.cons_append] at h1 ⊢
    simp only [contL, this, if_false]
    rw [interpLoopL_eq]
    simp only [stmtCatchL, h1, advanceTo]

/-! ### Every stream is covered -/

theorem longest_begin (d : Nat) (us : List Tok) :
    (Begins d us) ∨ ∃ p t r, us = p ++ t :: r ∧ Begins d p ∧ ¬ Begins d (p ++ [t]) := by
  have key : ∀ (r p : List Tok), Begins d p → Begins d (p ++ r) ∨
      ∃ p' t r', p ++ r = p' ++ t :: r' ∧ Begins d p' ∧ ¬ Begins d (p' ++ [t]) := by
    intro r
    induction r with
    | nil => intro p hp; left; simpa using hp
    | cons t r ih =>
      intro p hp
      by_cases h : Begins d (p ++ [t])
      · have := ih (p ++ [t]) h
        simpa using this
      · exact Or.inr ⟨p, t, r, rfl, hp, h⟩
  have h0 : Begins d [] :=
    ⟨[⟨.name, []⟩, ⟨.equals, []⟩, ⟨.value, []⟩, ⟨.endStatement, []⟩], d,
      .setting (vs := []) rfl rfl rfl (by simp) rfl⟩
  simpa using key us [] h0

theorem split_start (us : List Tok) : ∃ sk rest, us = sk ++ rest ∧ (∀ x ∈ sk, ¬ Starts x) ∧
    ∀ x, rest.head? = some x → Starts x := by
  induction us with
  | nil => exact ⟨[], [], rfl, by simp, by simp⟩
  | cons t us ih =>
    by_cases h : Starts t
    · exact ⟨[], t :: us, rfl, by simp, by simpa using h⟩
    · obtain ⟨sk, rest, h1, h2, h3⟩ := ih
      refine ⟨t :: sk, rest, by rw [h1]; rfl, ?_, h3⟩
      intro x hx
      rcases List.mem_cons.1 hx with rfl | hx
      · exact h
      · exact h2 x hx

theorem exists_msg {d : Nat} {p : List Tok} {t : Tok} (hp : Unfinished d p) :
    ∃ m, MsgFor d p t m := by
  by_cases h : p = []
  · by_cases hb : t.ty = .blockEnd
    · exact ⟨_, Or.inl ⟨h, hb, rfl⟩⟩
    · exact ⟨_, Or.inr (Or.inl ⟨h, hb, rfl⟩)⟩
  · obtain ⟨w, hs⟩ := hp.shape h
    exact ⟨_, Or.inr (Or.inr ⟨h, w, hs.wanted, rfl⟩)⟩

/-- The stream ends within a statement. -/
def Cut (us : List Tok) : Prop :=
  ∃ a p errs d, us = a ++ p ∧ Recover 0 0 a errs d ∧ p ≠ [] ∧ Unfinished d p

theorem recover_or_cut (n : Nat) : ∀ (k d : Nat) (us : List Tok), us.length ≤ n →
    (∃ errs e, Recover k d us errs e) ∨
      ∃ a p errs e, us = a ++ p ∧ Recover k d a errs e ∧ p ≠ [] ∧ Unfinished e p := by
  induction n with
  | zero =>
    intro k d us h
    have : us = [] := List.length_eq_zero_iff.1 (by omega)
    subst this
    exact Or.inl ⟨_, _, .nil⟩
  | succ n ih =>
    intro k d us hlen
    by_cases hne : us = []
    · subst hne; exact Or.inl ⟨_, _, .nil⟩
    have comb : ∀ {q rest : List Tok} {d' : Nat}, rest.length ≤ n →
        us = q ++ rest →
        (∀ errs e a b, rest = a ++ b → Recover (k + q.length) d' a errs e →
          ∃ errs', Recover k d (q ++ a) errs' e) →
        ((∃ errs e, Recover k d us errs e) ∨
          ∃ a p errs e, us = a ++ p ∧ Recover k d a errs e ∧ p ≠ [] ∧ Unfinished e p) := by
      intro q rest d' hl hus hstep
      rcases ih (k + q.length) d' rest hl with ⟨errs, e, h⟩ | ⟨a, p, errs, e, h1, h2, h3, h4⟩
      · obtain ⟨errs', h'⟩ := hstep errs e rest [] (by simp) h
        exact Or.inl ⟨errs', e, by rw [hus]; exact h'⟩
      · obtain ⟨errs', h'⟩ := hstep errs e a p h1 h2
        exact Or.inr ⟨q ++ a, p, errs', e, by rw [hus, h1, List.append_assoc], h', h3, h4⟩
    rcases longest_begin d us with ⟨more, d', h⟩ | ⟨p, t, r, hus, ⟨more, d', h⟩, ht⟩
    · by_cases hm : more = []
      · subst hm
        rw [List.append_nil] at h
        left
        have := Recover.good (k := k) h .nil
        rw [List.append_nil] at this
        exact ⟨_, _, this⟩
      · exact Or.inr ⟨[], us, [], d, rfl, .nil, hne, more, d', hm, h⟩
    · by_cases hm : more = []
      · subst hm
        rw [List.append_nil] at h
        have hlu : 0 < p.length := by
          cases p with
          | nil => exact absurd rfl h.ne_nil
          | cons => simp
        refine comb (q := p) (rest := t :: r) (d' := d') ?_ hus ?_
        · rw [hus, List.length_append] at hlen; omega
        · intro errs e a b _ hr
          exact ⟨errs, .good h hr⟩
      · have hp : Unfinished d p := ⟨more, d', hm, h⟩
        obtain ⟨m, hmsg⟩ := exists_msg (t := t) hp
        obtain ⟨sk, rest, h1, h2, h3⟩ := split_start r
        refine comb (q := p ++ t :: sk) (rest := rest) (d' := d) ?_ ?_ ?_
        · rw [hus, h1] at hlen
          simp only [List.length_append, List.length_cons] at hlen
          omega
        · rw [hus, h1]; simp
        · intro errs e a b hab hr
          refine ⟨(k + p.length, m) :: errs, ?_⟩
          rw [show p ++ t :: sk ++ a = p ++ t :: (sk ++ a) by simp]
          refine .bad hp ht hmsg h2 ?_ ?_
          · intro x hx
            apply h3
            rw [hab]
            cases a with
            | nil => simp at hx
            | cons y ys => simpa using hx
          · have : k + (p ++ t :: sk).length = k + (p.length + 1 + sk.length) := by
              simp only [List.length_append, List.length_cons]; omega
            rw [← this]
            exact hr

end Softlib.Config

namespace Softlib
open Config

theorem interpretL_start (reg : Registry) (err : Bool) {us : List Tok} {e : Tok} (hne : us ≠ [])
    (hno : ∀ t ∈ us, t.ty ≠ .eof) :
    interpretL reg err (us ++ [e]) = contL reg (us ++ [e]).length []
      ⟨Block.fresh 0 "<root>".toList [], [], err⟩ (us ++ [e]) := by
  cases us with
  | nil => exact absurd rfl hne
  | cons t us =>
    have := hno t (by simp)
    simp [interpretL, contL, this]

theorem interpretL_recover (reg : Registry) (err : Bool) {us : List Tok} {e : Tok}
    (he : e.ty = .eof) (hne : us ≠ []) (hno : ∀ t ∈ us, t.ty ≠ .eof) {errs : List (Nat × Msg)}
    {d : Nat} (h : Recover 0 0 us errs d) :
    if d = 0 then ∃ root, interpretL reg err (us ++ [e]) = .ok root (err || !errs.isEmpty) errs
    else interpretL reg err (us ++ [e]) = .thrown us.length errs := by
  obtain ⟨st', h1, h2, h3⟩ := contL_recover reg (total := (us ++ [e]).length) h
    ⟨Block.fresh 0 "<root>".toList [], [], err⟩ [] e [] rfl hno (Or.inr he) (by simp)
  rw [List.nil_append] at h1
  rw [interpretL_start reg err hne hno, h1]
  simp only [contL, he, if_true]
  cases d with
  | zero =>
    refine ⟨st'.root, ?_⟩
    rw [if_pos (List.length_eq_zero_iff.1 h2), h3]
  | succ d =>
    rw [if_neg (by simp), if_neg (by intro h; rw [h] at h2; cases h2)]
    simp

theorem interpretL_cut (reg : Registry) (err : Bool) {us : List Tok} {e : Tok}
    (he : e.ty = .eof) (hno : ∀ t ∈ us, t.ty ≠ .eof) (h : Cut us) :
    interpretL reg err (us ++ [e]) = .ub := by
  obtain ⟨a, p, errs, d, h1, h2, h3, h4⟩ := h
  have hne : us ≠ [] := by
    rw [h1]; intro h; exact h3 (List.append_eq_nil_iff.1 h).2
  rw [interpretL_start reg err hne hno]
  obtain ⟨y, ys, hp⟩ : ∃ y ys, p = y :: ys := by
    cases p with
    | nil => exact absurd rfl h3
    | cons y ys => exact ⟨y, ys, rfl⟩
  have hys : Starts y := by
    obtain ⟨w, hs⟩ := h4.shape h3
    rw [hp] at hs
    cases hs with
    | n h => exact Or.inl h
    | ne h => exact Or.inl h
    | nev h => exact Or.inl h
    | t h => exact Or.inr (Or.inl h)
    | tn h => exact Or.inr (Or.inl h)
    | tnl h => exact Or.inr (Or.inl h)
    | tnlm h => exact Or.inr (Or.inl h)
    | tnlmr h => exact Or.inr (Or.inl h)
  obtain ⟨st', h5, h6, -⟩ := contL_recover reg (total := (us ++ [e]).length) h2
    ⟨Block.fresh 0 "<root>".toList [], [], err⟩ [] y (ys ++ [e]) rfl
    (fun t ht => hno t (by rw [h1]; simp [ht])) (Or.inl hys)
    (by rw [h1, hp]; simp only [List.length_append, List.length_cons]; omega)
  have : us ++ [e] = a ++ y :: (ys ++ [e]) := by rw [h1, hp]; simp
  rw [this] at h5 ⊢
  rw [h5]
  subst h6
  rw [hp] at h4
  exact contL_cut reg _ _ st' h4 (by simp) he

/-- C83: loading succeeds exactly if the stream falls into statements and errors with all blocks
closed in the end; exactly the specified errors are reported, in order, each naming the first
token that does not fit; the error flag is set if there is any. -/
theorem C83_reports_exact (reg : Registry) (err : Bool) (us : List Tok) (e : Tok)
    (he : e.ty = .eof) (hne : us ≠ []) (hno : ∀ t ∈ us, t.ty ≠ .eof)
    (errs : List (Nat × Msg)) (err' : Bool) :
    (∃ root, interpretL reg err (us ++ [e]) = .ok root err' errs) ↔
      Recover 0 0 us errs 0 ∧ err' = (err || !errs.isEmpty) := by
  constructor
  · rintro ⟨root, h⟩
    rcases recover_or_cut us.length 0 0 us (Nat.le_refl _) with ⟨errs', d, h'⟩ | h'
    · have := interpretL_recover reg err he hne hno h'
      split at this
      · obtain ⟨root', h2⟩ := this
        rw [h] at h2
        rename_i hd
        subst hd
        cases h2
        exact ⟨h', rfl⟩
      · rw [h] at this; cases this
    · rw [interpretL_cut reg err he hno h'] at h; cases h
  · rintro ⟨h, rfl⟩
    exact interpretL_recover reg err he hne hno h

/-- C83: the exception for a document that is not closed is thrown exactly if blocks are still open
in the end; it names the end of the text. -/
theorem C83_unclosed_exact (reg : Registry) (err : Bool) (us : List Tok) (e : Tok)
    (he : e.ty = .eof) (hne : us ≠ []) (hno : ∀ t ∈ us, t.ty ≠ .eof)
    (errs : List (Nat × Msg)) (i : Nat) :
    interpretL reg err (us ++ [e]) = .thrown i errs ↔
      i = us.length ∧ ∃ d, Recover 0 0 us errs (d + 1) := by
  constructor
  · intro h
    rcases recover_or_cut us.length 0 0 us (Nat.le_refl _) with ⟨errs', d, h'⟩ | h'
    · have := interpretL_recover reg err he hne hno h'
      split at this
      · obtain ⟨root', h2⟩ := this
        rw [h] at h2; cases h2
      · rw [h] at this
        cases this
        cases d with
        | zero => contradiction
        | succ d => exact ⟨rfl, d, h'⟩
    · rw [interpretL_cut reg err he hno h'] at h; cases h
  · rintro ⟨rfl, d, h⟩
    have := interpretL_recover reg err he hne hno h
    simpa using this

/-- C83 (and C08, exactly): the interpreter reads past the end of the tokens exactly if there are
none or the stream ends within a statement. -/
theorem C83_undefined_exact (reg : Registry) (err : Bool) (us : List Tok) (e : Tok)
    (he : e.ty = .eof) (hno : ∀ t ∈ us, t.ty ≠ .eof) :
    interpret reg err (us ++ [e]) = .ub ↔ us = [] ∨ Cut us := by
  rw [← interpretL_erase]
  by_cases hne : us = []
  · subst hne
    simp only [true_or, iff_true, List.nil_append]
    rw [interpretL, interpLoopL_eq]
    simp [stmtCatchL, stmtL, he, advanceTo, IResL.erase]
  · constructor
    · intro h
      rcases recover_or_cut us.length 0 0 us (Nat.le_refl _) with ⟨errs', d, h'⟩ | h'
      · have := interpretL_recover reg err he hne hno h'
        split at this
        · obtain ⟨root', h2⟩ := this
          rw [h2] at h; cases h
        · rw [this] at h; cases h
      · exact Or.inr h'
    · rintro (h | h)
      · exact absurd h hne
      · rw [interpretL_cut reg err he hno h]; rfl

/-- C83: a document without errors is one that consists of statements. -/
theorem C83_no_errors_iff (us : List Tok) (d e : Nat) : Recover 0 d us [] e ↔ Stmts d us e := by
  have key : ∀ k, Recover k d us [] e ↔ Stmts d us e := by
    intro k
    constructor
    · intro h
      generalize hl : ([] : List (Nat × Msg)) = l at h
      induction h with
      | nil => exact .nil
      | good h _ ih => exact .cons h (ih hl)
      | bad => cases hl
    · intro h
      induction h generalizing k with
      | nil => exact .nil
      | cons h _ ih => exact .good h (ih _)
  exact key 0

/-- C83: every reported index is the index of a token of the stream, and the reports are in the
order of the text, no token twice. -/
theorem C83_indices (us : List Tok) (k d e : Nat) (errs : List (Nat × Msg))
    (h : Recover k d us errs e) :
    (∀ p ∈ errs, k ≤ p.1 ∧ p.1 < k + us.length) ∧ (errs.map Prod.fst).Pairwise (· < ·) := by
  induction h with
  | nil => simp
  | good h hr ih =>
    refine ⟨fun p hp => ?_, ih.2⟩
    have := ih.1 p hp
    rw [List.length_append]
    omega
  | @bad k d e p sk us t m errs hp ht hm hs hu hr ih =>
    constructor
    · intro q hq
      rw [List.length_append, List.length_cons, List.length_append]
      rcases List.mem_cons.1 hq with rfl | hq
      · constructor <;> simp only <;> omega
      · have := ih.1 q hq
        omega
    · rw [List.map_cons, List.pairwise_cons]
      refine ⟨fun i hi => ?_, ih.2⟩
      obtain ⟨q, hq, rfl⟩ := List.mem_map.1 hi
      have := ih.1 q hq
      simp only
      omega

/-- C83, from text: every message printed while loading a text names the stored position of a token
of the text; none is lost. -/
theorem C83_messages (reg : Registry) (fs : Str → Option (List Char)) (file : Str) (n : Nat)
    (filename : Str) (err : Bool) (text : List Char) (root : Block) (e : Bool)
    (reps : List (Option Report))
    (h : fromStringL reg fs file n filename err text = some (root, e, reps)) :
    fromString reg fs n err text = .interp (.ok root e) ∧
    ∃ pts pw ins ini errs, lexDepthP reg fs file n filename text = .ok pts pw ins ini ∧
      Recover 0 0 (pts.dropLast.map PTok.tok) errs 0 ∧ e = (err || !errs.isEmpty) ∧
      reps.length = errs.length ∧ ∀ (i : Nat) (p : Nat × Msg), errs[i]? = some p → ∃ t, pts[p.1]? = some t ∧
        reps[i]? = some (some (Report.mk t.line t.chr t.file p.2)) := by
  unfold fromStringL at h
  split at h
  · rename_i pts pw ins ini hlex
    split at h
    · rename_i root' e' log hint
      cases h
      have her := lexDepthP_erase reg fs file n filename text
      rw [hlex] at her
      simp only [LexResP.erase] at her
      refine ⟨?_, pts, pw, ins, ini, log, hlex, ?_⟩
      · unfold fromString
        rw [← her]
        simp only
        rw [← interpretL_erase, hint]
        rfl
      · obtain ⟨us, last, h1, h2, h3⟩ := C01_closed_by_one_eof reg fs n text _ _ _ _ her.symm
        have hd : pts.dropLast.map PTok.tok = us := by
          rw [List.map_dropLast, h1, List.dropLast_concat]
        rw [h1] at hint
        by_cases hne : us = []
        · exfalso
          subst hne
          have := (C83_undefined_exact reg err [] last h2 (by simp)).2 (Or.inl rfl)
          rw [← interpretL_erase, hint] at this
          cases this
        · obtain ⟨h4, h5⟩ := (C83_reports_exact reg err us last h2 hne
            (fun t ht => (h3 t ht).1) log e).1 ⟨root, hint⟩
          rw [hd]
          refine ⟨h4, h5, by simp, ?_⟩
          intro i p hp
          have hmem := (C83_indices _ _ _ _ _ h4).1 p (List.mem_of_getElem? hp)
          have hlen : us.length + 1 = pts.length := by
            have := congrArg List.length h1
            simpa using this.symm
          have hlt : p.1 < pts.length := by omega
          refine ⟨pts[p.1], List.getElem?_eq_getElem hlt, ?_⟩
          rw [List.getElem?_map, hp]
          simp [reportAt, List.getElem?_eq_getElem hlt]
    · cases h
  · cases h

/-- Two errors: the stray `=` and the missing value; `c` is read. -/
example : (fromStringL ["/root".toList] (fun _ => none) "f".toList 1 [] false
    "= ; a = ; c = 1;".toList).map Prod.snd = some (true,
      [some ⟨1, 2, "f".toList, .start .equals⟩,
       some ⟨1, 10, "f".toList, .expected .value .endStatement⟩]) := by
  decide +kernel

/-- A closing brace too many is reported as a mismatched opening brace. -/
example : (fromStringL ["/root".toList] (fun _ => none) "f".toList 1 [] false
    "a = 1; }".toList).map Prod.snd = some (true, [some ⟨1, 9, "f".toList, .brace⟩]) := by
  decide +kernel

/-- The error recovery skips a complete setting: after the missing `=` the whole `b = 1 ;` is
passed over. -/
example : Recover 0 0 [⟨.name, ['a']⟩, ⟨.name, ['b']⟩, ⟨.equals, ['=']⟩, ⟨.value, ['1']⟩,
    ⟨.endStatement, [';']⟩] [(1, .expected .equals .name)] 0 := by
  have hs : Shape [⟨.name, ['a']⟩] .equals := .n rfl
  refine .bad (p := [⟨.name, ['a']⟩]) (t := ⟨.name, ['b']⟩) (us := [])
    (sk := [⟨.equals, ['=']⟩, ⟨.value, ['1']⟩, ⟨.endStatement, [';']⟩]) ?_ ?_ ?_ ?_ ?_ .nil
  · exact ⟨[⟨.equals, []⟩, ⟨.value, []⟩, ⟨.endStatement, []⟩], 0, by simp,
      .setting (vs := []) rfl rfl rfl (by simp) rfl⟩
  · rintro ⟨more, d', h⟩
    cases h <;> simp_all
  · exact Or.inr (Or.inr ⟨by simp, _, hs.wanted, rfl⟩)
  · simp [Starts]
  · simp

end Softlib
