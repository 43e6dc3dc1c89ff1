/-
C82: positions stored in tokens and named in error messages.
-/
import Verif.Config.LexPosModel
import Verif.Config.LexSpec

namespace Softlib.Config

/-- Line (counted from one) of the character that follows the text `pre`. -/
def lineAt (pre : List Char) : Nat := 1 + pre.count '\n'

/-- Column (counted from one) of the character that follows the text `pre`. -/
def colAt (pre : List Char) : Nat := 1 + (pre.reverse.takeWhile (· ≠ '\n')).length

theorem lineAt_snoc (pre : List Char) (c : Char) :
    lineAt (pre ++ [c]) = if c = '\n' then lineAt pre + 1 else lineAt pre := by
  unfold lineAt
  rw [List.count_append, List.count_singleton]
  by_cases h : c = '\n'
  · subst h; simp; omega
  · simp [h]

theorem colAt_snoc (pre : List Char) (c : Char) :
    colAt (pre ++ [c]) = if c = '\n' then 1 else colAt pre + 1 := by
  unfold colAt
  rw [List.reverse_append, List.reverse_singleton, List.singleton_append, List.takeWhile_cons]
  by_cases h : c = '\n'
  · simp [h]
  · simp [h]; omega

theorem lineAt_word (pre w : List Char) (hw : '\n' ∉ w) : lineAt (pre ++ w) = lineAt pre := by
  unfold lineAt
  rw [List.count_append, List.count_eq_zero.2 hw]
  rfl

theorem colAt_word (pre w : List Char) (hw : '\n' ∉ w) :
    colAt (pre ++ w) = colAt pre + w.length := by
  induction w generalizing pre with
  | nil => simp
  | cons c w ih =>
    rw [List.mem_cons, not_or] at hw
    rw [show pre ++ c :: w = (pre ++ [c]) ++ w by simp, ih _ hw.2, colAt_snoc,
      if_neg (Ne.symm hw.1), List.length_cons]
    omega

/-- Where the token stands and what position it carries: `a` is the text before the token, `b` the
text after it.  Punctuation carries its own line and the column after it; a word carries the
position after the character that ends it. -/
def StoredAt (file : Str) (a b : List Char) (t : PTok) : Prop :=
  t.file = file ∧
  if t.tok.val ∈ [['='], ['('], [')'], ['{'], ['}'], [';']] then
    t.line = lineAt a ∧ t.chr = colAt a + 1
  else match b with
    | [] => t.line = lineAt a ∧ t.chr = colAt a + t.tok.val.length
    | c :: _ =>
      if c = '\n' ∨ c = '#' then t.line = lineAt a + 1 ∧ t.chr = 1
      else t.line = lineAt a ∧ t.chr = colAt a + t.tok.val.length + 1

/-- The tokens stand in the text one after the other, within its first `upto` characters, and
carry the positions of `StoredAt`. -/
inductive Placed (file : Str) (text : List Char) : Nat → List PTok → Prop
  | nil {n : Nat} : Placed file text n []
  | snoc {m n : Nat} {ts : List PTok} {t : PTok} {a b : List Char} (h : Placed file text m ts)
      (ha : m ≤ a.length) (hn : a.length + t.tok.val.length ≤ n)
      (ht : text = a ++ t.tok.val ++ b) (hs : StoredAt file a b t) :
      Placed file text n (ts ++ [t])

theorem Placed.mono {file : Str} {text : List Char} {m n : Nat} {ts : List PTok}
    (h : Placed file text m ts) (hmn : m ≤ n) : Placed file text n ts := by
  cases h with
  | nil => exact .nil
  | snoc h ha hn ht hs => exact .snoc h ha (Nat.le_trans hn hmn) ht hs

/-- A text every comment of which is ended by a newline. -/
def Ended (l : List Char) : Prop := '#' ∈ l → l.getLast? = some '\n'

theorem Ended.suffix {a b : List Char} (h : Ended (a ++ b)) : Ended b := by
  intro hb
  have := h (List.mem_append_right _ hb)
  rw [List.getLast?_append] at this
  cases hl : b.getLast? with
  | none => rw [List.getLast?_eq_none_iff] at hl; subst hl; cases hb
  | some x => rw [hl] at this; simpa using this

theorem skipComment_ended (l : Char) (r : List Char) (hr : r.getLast? = some '\n')
    (h0 : '\x00' ∉ r) : ∃ cmt r', skipComment l r = .newline ('\n' :: r') ∧
      r = cmt ++ '\n' :: r' ∧ '\n' ∉ cmt := by
  induction r generalizing l with
  | nil => simp at hr
  | cons c r ih =>
    rw [List.mem_cons, not_or] at h0
    unfold skipComment
    rw [if_neg (Ne.symm h0.1)]
    by_cases hc : c = '\n'
    · subst hc
      exact ⟨[], r, by simp, rfl, by simp⟩
    · rw [if_neg hc]
      have hr' : r.getLast? = some '\n' := by
        cases r with
        | nil => simp at hr; exact absurd hr hc
        | cons d r => rwa [List.getLast?_cons_cons] at hr
      obtain ⟨cmt, r', h1, h2, h3⟩ := ih c hr' h0.2
      exact ⟨c :: cmt, r', h1, by rw [h2]; rfl, by simp [h3, Ne.symm hc]⟩

/-- What `nextc` consumes outside of strings. -/
inductive Consumed (pw : Bool) (rest : List Char) : NextResP → List Char → Prop
  /-- end of the text -/
  | zero {pw' : Bool} {l k : Nat} {pre : List Char} (hl : l = lineAt (pre ++ rest))
      (hk : k = colAt (pre ++ rest)) (hb : pw = false → rest = []) :
      Consumed pw rest (.zero [] pw' l k) pre
  /-- a blank, which (or the comment before it) follows immediately -/
  | blank {mid r' : List Char} {x : Char} {l k : Nat} {pre : List Char} (hp : pw = false)
      (hr : rest = mid ++ x :: r') (hx : IsWs x) (hl : l = lineAt (pre ++ mid ++ [x]))
      (hk : k = colAt (pre ++ mid ++ [x]))
      (hm : mid = [] ∨ (∃ m, mid = '#' :: m) ∧ x = '\n' ∧ '\n' ∉ mid) :
      Consumed pw rest (.char ' ' r' true l k) pre
  /-- another character -/
  | other {mid r' : List Char} {c : Char} {l k : Nat} {pre : List Char}
      (hr : rest = mid ++ c :: r') (hx : ¬ IsWs c) (hh : c ≠ '#')
      (hl : l = lineAt (pre ++ mid ++ [c])) (hk : k = colAt (pre ++ mid ++ [c]))
      (hm : pw = false → mid = []) :
      Consumed pw rest (.char c r' false l k) pre

theorem Consumed.skip {rest' : List Char} {res : NextResP} {pre skipped : List Char}
    (h : Consumed true rest' res (pre ++ skipped)) :
    Consumed true (skipped ++ rest') res pre := by
  cases h with
  | zero hl hk hb =>
    exact .zero (by rw [hl, List.append_assoc]) (by rw [hk, List.append_assoc]) (by simp)
  | blank hp => cases hp
  | other hr hx hh hl hk hm =>
    exact .other (mid := skipped ++ _) (by rw [hr, List.append_assoc]) hx hh
      (by rw [hl]; simp) (by rw [hk]; simp) (by simp)

theorem nextcP_comment {pw : Bool} {line chr : Nat} {rest r' : List Char}
    (h : skipComment '#' rest = .newline r') :
    nextcP false pw line chr ('#' :: rest) = nextcP false pw line (chr + 1) r' := by
  rw [nextcP.eq_def]
  simp only [Bool.false_eq_true, if_false, if_true]
  split
  · rename_i r2 h2
    rw [h] at h2
    cases h2
    rfl
  · rename_i h2; rw [h] at h2; cases h2
  · rename_i h2; rw [h] at h2; cases h2

theorem nextcP_newline (pw : Bool) (line chr : Nat) (rest : List Char) :
    nextcP false pw line chr ('\n' :: rest) =
      if pw then nextcP false pw (line + 1) 1 rest else .char ' ' rest true (line + 1) 1 := by
  rw [nextcP.eq_def]
  simp

theorem nextcP_space (pw : Bool) (line chr : Nat) {c : Char} (hc : c = ' ' ∨ c = '\t')
    (rest : List Char) :
    nextcP false pw line chr (c :: rest) =
      if pw then nextcP false pw line (chr + 1) rest else .char ' ' rest true line (chr + 1) := by
  rw [nextcP.eq_def]
  rcases hc with rfl | rfl <;> simp

theorem nextcP_other (pw : Bool) (line chr : Nat) {c : Char} (hc : ¬ IsWs c) (hh : c ≠ '#')
    (h0 : c ≠ '\x00') (rest : List Char) :
    nextcP false pw line chr (c :: rest) = .char c rest false line (chr + 1) := by
  rw [nextcP.eq_def]
  unfold IsWs at hc
  rw [not_or, not_or] at hc
  simp [hh, h0, hc.1, hc.2.1, hc.2.2]

theorem nextcP_consumed (pw : Bool) (n : Nat) : ∀ (pre rest : List Char), rest.length ≤ n →
    '\x00' ∉ rest → Ended rest →
    Consumed pw rest (nextcP false pw (lineAt pre) (colAt pre) rest) pre := by
  induction n with
  | zero =>
    intro pre rest hn h0 he
    have : rest = [] := List.length_eq_zero_iff.1 (by omega)
    subst this
    rw [nextcP.eq_def]
    exact .zero (by simp) (by simp) (by simp)
  | succ n ih =>
    intro pre rest hn h0 he
    cases rest with
    | nil =>
      rw [nextcP.eq_def]
      exact .zero (by simp) (by simp) (by simp)
    | cons c rest =>
      rw [List.length_cons] at hn
      rw [List.mem_cons, not_or] at h0
      by_cases hh : c = '#'
      · subst hh
        have hl : ('#' :: rest).getLast? = some '\n' := he (by simp)
        have hr : rest.getLast? = some '\n' := by
          cases rest with
          | nil => simp at hl
          | cons d r => rwa [List.getLast?_cons_cons] at hl
        obtain ⟨cmt, r2, h1, h2, h3⟩ := skipComment_ended '#' rest hr h0.2
        rw [nextcP_comment h1, nextcP_newline]
        have e1 : lineAt (pre ++ ('#' :: cmt) ++ ['\n']) = lineAt pre + 1 := by
          rw [lineAt_snoc, if_pos rfl, lineAt_word _ _ (by simp [h3])]
        have e2 : colAt (pre ++ ('#' :: cmt) ++ ['\n']) = 1 := by
          rw [colAt_snoc, if_pos rfl]
        cases pw with
        | false =>
          simp only [Bool.false_eq_true, if_false]
          exact .blank rfl (mid := '#' :: cmt) (x := '\n') (by rw [h2]; rfl) (Or.inl rfl)
            e1.symm e2.symm (Or.inr ⟨⟨cmt, rfl⟩, rfl, by simp [h3]⟩)
        | true =>
          simp only [if_true]
          have hlen := congrArg List.length h2
          rw [List.length_append, List.length_cons] at hlen
          have := ih (pre ++ ('#' :: cmt) ++ ['\n']) r2 (by omega)
            (by rw [h2] at h0; simp at h0; exact h0.2)
            (by
              rw [h2, show '#' :: (cmt ++ '\n' :: r2) = ('#' :: cmt ++ ['\n']) ++ r2 by simp] at he
              exact he.suffix)
          rw [e1, e2] at this
          rw [show '#' :: rest = ('#' :: cmt ++ ['\n']) ++ r2 by rw [h2]; simp]
          rw [List.append_assoc] at this
          exact this.skip
      · by_cases hn' : c = '\n'
        · subst hn'
          rw [nextcP_newline]
          have e1 : lineAt (pre ++ ['\n']) = lineAt pre + 1 := by rw [lineAt_snoc, if_pos rfl]
          have e2 : colAt (pre ++ ['\n']) = 1 := by rw [colAt_snoc, if_pos rfl]
          cases pw with
          | false =>
            simp only [Bool.false_eq_true, if_false]
            exact .blank rfl (mid := []) rfl (Or.inl rfl) (by rw [List.append_nil, e1])
              (by rw [List.append_nil, e2]) (Or.inl rfl)
          | true =>
            simp only [if_true]
            have := ih (pre ++ ['\n']) rest (by omega) h0.2 (Ended.suffix (a := ['\n']) he)
            rw [e1, e2] at this
            exact this.skip
        · by_cases hs : c = ' ' ∨ c = '\t'
          · rw [nextcP_space _ _ _ hs]
            have e1 : lineAt (pre ++ [c]) = lineAt pre := by rw [lineAt_snoc, if_neg hn']
            have e2 : colAt (pre ++ [c]) = colAt pre + 1 := by rw [colAt_snoc, if_neg hn']
            cases pw with
            | false =>
              simp only [Bool.false_eq_true, if_false]
              exact .blank rfl (mid := []) rfl (Or.inr hs) (by rw [List.append_nil, e1])
                (by rw [List.append_nil, e2]) (Or.inl rfl)
            | true =>
              simp only [if_true]
              have := ih (pre ++ [c]) rest (by omega) h0.2 (Ended.suffix (a := [c]) he)
              rw [e1, e2] at this
              exact this.skip
          · have hw : ¬ IsWs c := by
              rintro (h | h)
              · exact hn' h
              · exact hs h
            rw [nextcP_other _ _ _ hw hh (Ne.symm h0.1)]
            exact .other (mid := []) rfl hw hh
              (by rw [List.append_nil, lineAt_snoc, if_neg hn'])
              (by rw [List.append_nil, colAt_snoc, if_neg hn']) (fun _ => rfl)


theorem gettkn_val (bts : List Str) (w : Str) (prev : Option TokTy) : (gettkn bts w prev).val = w := by
  unfold gettkn
  repeat' split
  all_goals rfl

theorem word_not_punct {w : Str} (hw : ∀ c ∈ w, IsWordChar c) :
    w ∉ [['='], ['('], [')'], ['{'], ['}'], [';']] := by
  intro h
  simp only [List.mem_cons, List.not_mem_nil, or_false] at h
  rcases h with rfl | rfl | rfl | rfl | rfl | rfl <;>
    exact absurd (hw _ (List.mem_singleton.2 rfl)).2.1 (by unfold IsPunct; decide)

theorem push_word {bts : List Str} {file : Str} {text a w b : List Char} {ts : List PTok}
    {s : LexStP} (hp : Placed file text a.length ts) (hw : ∀ c ∈ w, IsWordChar c)
    (hpos : w ≠ [] → match b with
      | [] => s.line = lineAt a ∧ s.chr = colAt a + w.length
      | c :: _ =>
        if c = '\n' ∨ c = '#' then s.line = lineAt a + 1 ∧ s.chr = 1
        else s.line = lineAt a ∧ s.chr = colAt a + w.length + 1)
    (ht : text = a ++ w ++ b) :
    Placed file text (a.length + w.length) (pushbufferP bts file s w ts) := by
  unfold pushbufferP
  by_cases h : w = []
  · rw [if_pos h]
    exact hp.mono (Nat.le_add_right _ _)
  · rw [if_neg h]
    refine .snoc (b := b) hp (Nat.le_refl _) ?_ ?_ ?_
    · rw [gettkn_val]; exact Nat.le_refl _
    · rw [gettkn_val, ht]
    · refine ⟨rfl, ?_⟩
      simp only [gettkn_val]
      rw [if_neg (word_not_punct hw)]
      exact hpos h

theorem push_punct {bts : List Str} {file : Str} {text a b : List Char} {c : Char} {m : Nat}
    {ts : List PTok} {s : LexStP} (hp : Placed file text m ts) (hm : m ≤ a.length)
    (hc : IsPunct c) (ht : text = a ++ c :: b) (hl : s.line = lineAt a)
    (hk : s.chr = colAt a + 1) :
    Placed file text (a.length + 1) (pushbufferP bts file s [c] ts) := by
  unfold pushbufferP
  rw [if_neg (by simp)]
  refine .snoc (b := b) hp hm ?_ ?_ ?_
  · rw [gettkn_val]; exact Nat.le_refl _
  · rw [gettkn_val, ht]; simp
  · refine ⟨rfl, ?_⟩
    simp only [gettkn_val]
    rw [if_pos (by rcases hc with rfl | rfl | rfl | rfl | rfl | rfl <;> simp)]
    exact ⟨hl, hk⟩

/-- State of the lexer after the part `pre` of a text without quotes and included files. -/
structure PInv (file : Str) (text pre rest : List Char) (s : LexStP) : Prop where
  split : text = pre ++ rest
  str : s.instring = false
  inc : s.ininclude = false
  line : s.line = lineAt pre
  chr : s.chr = colAt pre
  blank : s.buffer ≠ [] → s.prevws = false
  word : ∀ c ∈ s.buffer, IsWordChar c
  placed : ∃ a, pre = a ++ s.buffer ∧ Placed file text a.length s.tkns

theorem word_no_newline {w : Str} (hw : ∀ c ∈ w, IsWordChar c) : '\n' ∉ w :=
  fun h => (hw _ h).1 (Or.inl rfl)

theorem lexLoopP_placed (bts : List Str) (file : Str) (inc : Nat → Nat → Str → LexResP)
    (text : List Char) (ht : Plain text) (hq : '"' ∉ text) (he : Ended text) (n : Nat) :
    ∀ (pre rest : List Char) (s : LexStP), rest.length ≤ n → PInv file text pre rest s →
    ∃ ts pw, lexLoopP bts file inc s rest =
      .ok (ts ++ [⟨eofTok, lineAt text, colAt text, file⟩]) pw false false ∧
      Placed file text text.length ts := by
  induction n with
  | zero =>
    intro pre rest s hn hi
    have : rest = [] := List.length_eq_zero_iff.1 (by omega)
    subst this
    obtain ⟨pw, ins, ini, b, ts, l, k⟩ := s
    obtain ⟨hsp, hst, hin, hl, hk, hb, hw, a, ha, hpl⟩ := hi
    simp only at hst hin hl hk hb hw ha hpl
    subst hst hin hl hk
    rw [List.append_nil] at hsp
    subst hsp
    rw [lexLoopP.eq_def, nextcP.eq_def]
    refine ⟨_, _, rfl, ?_⟩
    have := push_word (bts := bts) (w := b) (b := []) (s := ⟨pw, false, false, b, ts, lineAt text,
      colAt text⟩) (ht := by rw [ha, List.append_nil]) hpl hw (by
        intro _
        simp only
        rw [ha]
        exact ⟨lineAt_word _ _ (word_no_newline hw), colAt_word _ _ (word_no_newline hw)⟩)
    rw [ha, List.length_append]
    rw [← ha]
    exact this
  | succ n ih =>
    intro pre rest s hn hi
    obtain ⟨pw, ins, ini, b, ts, l, k⟩ := s
    obtain ⟨hsp, hst, hin, hl, hk, hb, hw, a, ha, hpl⟩ := hi
    simp only at hst hin hl hk hb hw ha hpl
    subst hst hin hl hk
    have hc := nextcP_consumed pw rest.length pre rest (Nat.le_refl _)
      (by intro h; exact (ht _ (hsp ▸ List.mem_append_right _ h)).2.2 rfl)
      (by rw [hsp] at he; exact he.suffix)
    rw [lexLoopP.eq_def]
    simp only
    generalize hres : nextcP false pw (lineAt pre) (colAt pre) rest = res at hc
    have hwn := word_no_newline hw
    have elw : lineAt pre = lineAt a := by rw [ha, lineAt_word _ _ hwn]
    have ecw : colAt pre = colAt a + b.length := by rw [ha, colAt_word _ _ hwn]
    cases hc with
    | @zero pw' l k _ h1 h2 h3 =>
      split
      · rename_i h; cases h
      · rename_i h
        cases h
        refine ⟨_, _, by rw [lexFinishP, h1, h2, ← hsp], ?_⟩
        have hlen : a.length + b.length ≤ text.length := by
          rw [hsp, ha]; simp only [List.length_append]; omega
        refine (push_word (bts := bts) (w := b) (b := rest) (s := ⟨pw', false, false, b, ts, _,
          _⟩) (ht := by rw [hsp, ha]) hpl hw ?_).mono hlen
        intro hbn
        have hr := h3 (hb hbn)
        subst hr
        simp only [List.append_nil] at hsp ⊢
        rw [hsp]
        exact ⟨elw, ecw⟩
      · rename_i h; cases h
    | @blank mid r' x l k _ hpw hr hx h1 h2 hm =>
      split
      · rename_i h; cases h
      · rename_i h; cases h
      · rename_i h
        cases h
        have hstep : lexStepP bts file inc ⟨true, false, false, b, ts, l, k⟩ ' ' =
            .next ⟨true, false, false, [], pushbufferP bts file ⟨true, false, false, b, ts, l, k⟩
              b ts, l, k⟩ := by
          simp [lexStepP]
        rw [hstep]
        have hlr := congrArg List.length hr
        rw [List.length_append, List.length_cons] at hlr
        refine ih (pre ++ mid ++ [x]) r' _ (by omega) ⟨by rw [hsp, hr]; simp, rfl, rfl, h1, h2,
          by simp, by simp, pre ++ mid ++ [x], by simp, ?_⟩
        have hp' := push_word (bts := bts) (w := b) (b := rest)
          (s := ⟨true, false, false, b, ts, l, k⟩) (ht := by rw [hsp, ha]) hpl hw (by
            intro _
            subst hr
            rcases hm with rfl | ⟨⟨m, rfl⟩, rfl, hnm⟩
            · simp only [List.nil_append]
              rw [List.append_nil] at h1 h2
              rw [lineAt_snoc] at h1
              rw [colAt_snoc] at h2
              by_cases hxn : x = '\n'
              · subst hxn
                rw [if_pos rfl] at h1 h2
                rw [if_pos (Or.inl rfl), h1, h2, elw]
                exact ⟨rfl, rfl⟩
              · rw [if_neg hxn] at h1 h2
                have hxh : x ≠ '#' := by
                  rintro rfl
                  exact absurd hx (by unfold IsWs; decide)
                rw [if_neg (by rw [not_or]; exact ⟨hxn, hxh⟩), h1, h2, elw, ecw]
                exact ⟨rfl, rfl⟩
            · simp only [List.cons_append]
              rw [lineAt_snoc, if_pos rfl, lineAt_word _ _ hnm] at h1
              rw [colAt_snoc, if_pos rfl] at h2
              rw [if_pos (Or.inr trivial), h1, h2, elw]
              exact ⟨rfl, rfl⟩)
        refine hp'.mono ?_
        rw [ha]
        simp only [List.length_append]
        omega
    | @other mid r' c l k _ hr hx hh h1 h2 hm =>
      split
      · rename_i h; cases h
      · rename_i h; cases h
      · rename_i h
        cases h
        have hcm : c ∈ text := by rw [hsp, hr]; simp
        have hcq : c ≠ '"' := fun e => hq (e ▸ hcm)
        have hci := ht c hcm
        have hcn : c ≠ '\n' := fun e => hx (Or.inl e)
        have hcs : c ≠ ' ' := fun e => hx (Or.inr (Or.inl e))
        have hlr := congrArg List.length hr
        rw [List.length_append, List.length_cons] at hlr
        rw [lineAt_snoc, if_neg hcn] at h1
        rw [colAt_snoc, if_neg hcn] at h2
        have h1' : l = lineAt (pre ++ mid ++ [c]) := by rw [lineAt_snoc, if_neg hcn, h1]
        have h2' : k = colAt (pre ++ mid ++ [c]) := by rw [colAt_snoc, if_neg hcn, h2]
        have hsp' : text = (pre ++ mid ++ [c]) ++ r' := by rw [hsp, hr]; simp
        have hp' := push_word (bts := bts) (w := b) (b := rest)
          (s := ⟨false, false, false, b, ts, l, k⟩) (ht := by rw [hsp, ha]) hpl hw (by
            intro hbn
            have := hm (hb hbn)
            subst this
            subst hr
            simp only [List.nil_append]
            rw [List.append_nil] at h1 h2
            rw [if_neg (by rw [not_or]; exact ⟨hcn, hh⟩), h1, h2, elw, ecw]
            exact ⟨rfl, rfl⟩)
        by_cases hpc : IsPunct c
        · have hstep : lexStepP bts file inc ⟨false, false, false, b, ts, l, k⟩ c =
              .next ⟨false, false, false, [], pushbufferP bts file ⟨false, false, false, b, ts, l, k⟩
                [c] (pushbufferP bts file ⟨false, false, false, b, ts, l, k⟩ b ts), l, k⟩ := by
            unfold IsPunct at hpc
            simp only [lexStepP]
            rw [if_neg (by simp), if_neg (by simp), if_neg hcq, if_neg hci.1, if_neg hci.2.1,
              if_pos hpc]
          rw [hstep]
          refine ih (pre ++ mid ++ [c]) r' _ (by omega) ⟨hsp', rfl, rfl, h1', h2', by simp, by simp,
            pre ++ mid ++ [c], by simp, ?_⟩
          have := push_punct (bts := bts) (s := ⟨false, false, false, b, ts, l, k⟩) (a := pre ++ mid)
            (b := r') (c := c) hp' (by rw [ha]; simp only [List.length_append]; omega) hpc
            (by rw [hsp, hr]; simp) h1 h2
          refine this.mono ?_
          simp only [List.length_append, List.length_singleton]
          omega
        · by_cases hcc : c = ','
          · have hstep : lexStepP bts file inc ⟨false, false, false, b, ts, l, k⟩ c =
                .next ⟨false, false, false, [], pushbufferP bts file
                  ⟨false, false, false, b, ts, l, k⟩ b ts, l, k⟩ := by
              unfold IsPunct at hpc
              simp only [lexStepP]
              rw [if_neg (by simp), if_neg (by simp), if_neg hcq, if_neg hci.1, if_neg hci.2.1,
                if_neg hpc, if_pos (Or.inl hcc)]
            rw [hstep]
            refine ih (pre ++ mid ++ [c]) r' _ (by omega) ⟨hsp', rfl, rfl, h1', h2', by simp,
              by simp, pre ++ mid ++ [c], by simp, hp'.mono ?_⟩
            rw [ha]
            simp only [List.length_append]
            omega
          · have hstep : lexStepP bts file inc ⟨false, false, false, b, ts, l, k⟩ c =
                .next ⟨false, false, false, b ++ [c], ts, l, k⟩ := by
              unfold IsPunct at hpc
              simp only [lexStepP]
              rw [if_neg (by simp), if_neg (by simp), if_neg hcq, if_neg hci.1, if_neg hci.2.1,
                if_neg hpc, if_neg (by rw [not_or]; exact ⟨hcc, hcs⟩)]
            rw [hstep]
            have hwc : IsWordChar c :=
              ⟨hx, hpc, hh, hcq, hci.1, hci.2.1, hcc, hci.2.2⟩
            refine ih (pre ++ mid ++ [c]) r' _ (by omega) ⟨hsp', rfl, rfl, h1', h2', fun _ => rfl,
              ?_, a ++ mid, ?_, hpl.mono ?_⟩
            · intro d hd
              simp only [List.mem_append, List.mem_singleton] at hd
              rcases hd with hd | rfl
              · exact hw d hd
              · exact hwc
            · rw [ha]
              by_cases hbn : b = []
              · subst hbn; simp
              · have := hm (hb hbn)
                subst this
                simp
            · simp only [List.length_append]
              omega

end Softlib.Config

namespace Softlib
open Config

/-! ### C82 -/

/-- C82 for texts without quotes and included files, every comment of which is ended by a newline:
the tokens stand in the text one after the other, and each carries the position described by
`StoredAt`: punctuation its line and the following column; words the position after the character
that ends them, i.e. the next line if that is a newline or a comment.  The last token carries the
end of the text.  Missing: strings and included files, where the positions are wrong
(`C82_refuted_string`, `C82_refuted_include`); words at the end of a line
(`C82_refuted_newline`). -/
theorem C82_positions_partial (bts : List Str) (fs : Str → Option (List Char)) (file filename : Str)
    (n : Nat) (text : List Char) (ht : Plain text) (hq : '"' ∉ text)
    (he : '#' ∈ text → text.getLast? = some '\n') :
    ∃ ts pw, lexDepthP bts fs file (n + 1) filename text =
      .ok (ts ++ [⟨eofTok, lineAt text, colAt text, file⟩]) pw false false ∧
      Placed file text text.length ts := by
  unfold lexDepthP
  refine lexLoopP_placed bts file _ text ht hq he text.length [] text LexStP.init (Nat.le_refl _) ?_
  exact ⟨rfl, rfl, rfl, rfl, rfl, by simp [LexStP.init], by simp [LexStP.init], [], rfl, .nil⟩

/-- C82: positions do not influence the tokens; the lexer with positions has exactly the tokens of
the lexer without. -/
theorem C82_tokens_unchanged (bts : List Str) (fs : Str → Option (List Char)) (file filename : Str)
    (n : Nat) (text : List Char) :
    (lexDepthP bts fs file n filename text).erase = lexDepth bts fs n text :=
  lexDepthP_erase bts fs file n filename text


/-- C82: the file named in a token is the one given to `FromString`/`FromFile`, for every token and
every nesting of included files. -/
theorem C82_file_rule (bts : List Str) (fs : Str → Option (List Char)) (file filename : Str)
    (n : Nat) (text : List Char) {ts : List PTok} {a b c : Bool}
    (h : lexDepthP bts fs file n filename text = .ok ts a b c) : ∀ t ∈ ts, t.file = file := by
  have push : ∀ (s : LexStP) (w : Str) (ts : List PTok), (∀ t ∈ ts, t.file = file) →
      ∀ t ∈ pushbufferP bts file s w ts, t.file = file := by
    intro s w ts h t ht
    unfold pushbufferP at ht
    split at ht
    · exact h t ht
    · rw [List.mem_append, List.mem_singleton] at ht
      rcases ht with ht | rfl
      · exact h t ht
      · rfl
  have loop : ∀ (inc : Nat → Nat → Str → LexResP),
      (∀ l k m ts a b c, inc l k m = .ok ts a b c → ∀ t ∈ ts, t.file = file) →
      ∀ (s : LexStP) (text : List Char), (∀ t ∈ s.tkns, t.file = file) →
      ∀ ts a b c, lexLoopP bts file inc s text = .ok ts a b c → ∀ t ∈ ts, t.file = file := by
    intro inc hinc s text
    fun_induction lexLoopP bts file inc s text with
    | case1 => intro _ ts a b c h; cases h
    | case2 s text r pw l k hn =>
      intro hs ts a b c h
      simp only [lexFinishP, LexResP.ok.injEq] at h
      obtain ⟨rfl, _⟩ := h
      intro t ht
      rw [List.mem_append, List.mem_singleton] at ht
      rcases ht with ht | rfl
      · exact push _ _ _ hs t ht
      · rfl
    | case3 s text ch rest pw l k hn r hst =>
      intro hs ts a b c h
      subst h
      unfold lexStepP at hst
      simp only at hst
      repeat' split at hst
      all_goals (first | cases hst | skip)
      rename_i hno
      exact absurd (StepResP.stop.inj hst) (hno _ _ _ _)
    | case4 s text ch rest pw l k hn s' hst ih =>
      intro hs
      refine ih ?_
      unfold lexStepP at hst
      simp only at hst
      repeat' split at hst
      all_goals (first | (simp only [StepResP.next.injEq] at hst; subst hst) | cases hst)
      all_goals simp only
      · exact hs
      · exact hs
      · exact push _ _ _ hs
      · exact push _ _ _ hs
      · rename_i heq
        intro t ht
        rw [List.mem_append] at ht
        rcases ht with ht | ht
        · exact hs t ht
        · exact hinc _ _ _ _ _ _ _ heq t (List.dropLast_subset _ ht)
      · exact push _ _ _ (push _ _ _ hs)
      · exact push _ _ _ hs
      · exact hs
  induction n generalizing filename text ts a b c with
  | zero => cases h
  | succ n ih =>
    unfold lexDepthP at h
    refine loop _ ?_ _ _ (by simp [LexStP.init]) _ _ _ _ h
    intro l k m ts a b c hi
    unfold includeFileP at hi
    split at hi
    · cases hi
    · exact ih _ _ hi

/-- C82 as stated is refuted: a word at the end of a line carries the following line. -/
theorem C82_refuted_newline :
    lexDepthP [] (fun _ => none) "main".toList 1 [] "a\n= 1;".toList =
      .ok [⟨⟨.name, ['a']⟩, 2, 1, "main".toList⟩, ⟨⟨.equals, ['=']⟩, 2, 2, "main".toList⟩,
        ⟨⟨.value, ['1']⟩, 2, 5, "main".toList⟩, ⟨⟨.endStatement, [';']⟩, 2, 5, "main".toList⟩,
        ⟨eofTok, 2, 5, "main".toList⟩] false false false := by
  decide +kernel

/-- C82 as stated is refuted: newlines within strings are not counted, here `;` stands on line 2. -/
theorem C82_refuted_string :
    lexDepthP [] (fun _ => none) "main".toList 1 [] "a = \"x\ny\";".toList =
      .ok [⟨⟨.name, ['a']⟩, 1, 3, "main".toList⟩, ⟨⟨.equals, ['=']⟩, 1, 4, "main".toList⟩,
        ⟨⟨.value, "x\ny".toList⟩, 1, 10, "main".toList⟩,
        ⟨⟨.endStatement, [';']⟩, 1, 11, "main".toList⟩,
        ⟨eofTok, 1, 11, "main".toList⟩] false false false := by
  decide +kernel

/-- C82 as stated is refuted: the tokens of an included file name the including file. -/
theorem C82_refuted_include :
    lexDepthP [] (fun f => if f = "sub".toList then some "\n\n b".toList else none)
      "main".toList 2 "main".toList "<sub>".toList =
      .ok [⟨⟨.name, ['b']⟩, 3, 3, "main".toList⟩, ⟨eofTok, 1, 6, "main".toList⟩]
        false false false := by
  decide +kernel

/-- A missing included file is reported at the closing mark; within a file loaded by `FromString`
no file name is known (`filename` is empty). -/
example : lexDepthP [] (fun _ => none) "main".toList 1 [] "a\n <sub>".toList =
    .throw 2 7 [] "sub".toList := by
  decide +kernel

/-- The positions of an ordinary text. -/
example : lexDepthP [] (fun _ => none) "main".toList 1 [] "a = 1; # c\n".toList =
    .ok [⟨⟨.name, ['a']⟩, 1, 3, "main".toList⟩, ⟨⟨.equals, ['=']⟩, 1, 4, "main".toList⟩,
      ⟨⟨.value, ['1']⟩, 1, 7, "main".toList⟩, ⟨⟨.endStatement, [';']⟩, 1, 7, "main".toList⟩,
      ⟨eofTok, 2, 1, "main".toList⟩] true false false := by
  decide +kernel

/-- The hypotheses of `C82_positions_partial` can be met. -/
example : Plain "a = 1; # c\n".toList ∧ '"' ∉ "a = 1; # c\n".toList ∧
    "a = 1; # c\n".toList.getLast? = some '\n' := by
  refine ⟨?_, by decide, by decide⟩
  unfold Plain
  decide

end Softlib
