/-
Helper lemmas about the lexer (not property statements).
-/
import Verif.Config.LexAuto
import Verif.Config.LexSpec

namespace Softlib.Config

section
variable (bts : List Str) (inc : Str → LexRes)

theorem afinish_comment (l : Char) (s : LexSt) : afinish bts inc (.run (some l) s) =
    if l = '#' then .diverges else afin0 bts (acode bts inc s l) := rfl

theorem afinish_none (s : LexSt) : afinish bts inc (.run none s) = lexFinish bts s := rfl

/-- A text is lexed by running the one-character machine over it. -/
theorem lexDepth_eq_fold (fs : Str → Option (List Char)) (n : Nat) (text : List Char) :
    lexDepth bts fs (n + 1) text =
      let inc : Str → LexRes := includeFile fs (lexDepth bts fs n)
      afinish bts inc (text.foldl (astep bts inc) (.run none LexSt.init)) := by
  rw [lexDepth.eq_2, lexLoop_eq_fold]

/-! ### Tokens are well formed (C01) -/

/-- A token other than the closing one. -/
def GoodTok (t : Tok) : Prop := t.ty ≠ .eof ∧ t.val ≠ []

theorem gettkn_good (s : Str) (prev : Option TokTy) (hs : s ≠ []) :
    GoodTok (gettkn bts s prev) := by
  unfold gettkn GoodTok
  repeat' split
  all_goals exact ⟨by simp, hs⟩

theorem pushbuffer_good {b : Str} {ts : List Tok} (h : ∀ t ∈ ts, GoodTok t) :
    ∀ t ∈ pushbuffer bts b ts, GoodTok t := by
  unfold pushbuffer
  split
  · exact h
  · intro t ht
    rcases List.mem_append.1 ht with ht | ht
    · exact h t ht
    · rw [List.mem_singleton.1 ht]
      exact gettkn_good bts _ _ (by assumption)

def GoodRes : LexRes → Prop
  | .ok ts _ _ _ => ∃ us, ts = us ++ [eofTok] ∧ ∀ t ∈ us, GoodTok t
  | _ => True

def GoodASt : ASt → Prop
  | .run _ s => ∀ t ∈ s.tkns, GoodTok t
  | .done r => GoodRes r

theorem lexFinish_good {s : LexSt} (h : ∀ t ∈ s.tkns, GoodTok t) : GoodRes (lexFinish bts s) :=
  ⟨_, rfl, pushbuffer_good bts h⟩

theorem feed_good (hinc : ∀ x, GoodRes (inc x)) {s : LexSt} (h : ∀ t ∈ s.tkns, GoodTok t)
    (c : Char) : GoodASt (feed bts inc s c) := by
  unfold feed lexStep
  split
  · rename_i r hr
    revert hr
    repeat' split
    all_goals intro hr
    all_goals first | (cases hr; fail) | skip
    all_goals try (cases hr)
    rename_i r _ hne
    have := hinc s.buffer
    simpa [GoodASt] using this
  · rename_i s' hr
    revert hr
    repeat' split
    all_goals intro hr
    all_goals try (cases hr)
    all_goals try exact h
    all_goals try exact pushbuffer_good bts h
    · rename_i t pw ins ini heq
      have := hinc s.buffer
      rw [heq] at this
      obtain ⟨us, rfl, hu⟩ := this
      simp only [GoodASt, List.dropLast_concat]
      intro t ht
      rcases List.mem_append.1 ht with ht | ht
      · exact h t ht
      · exact hu t ht
    · simp only [GoodASt]
      exact pushbuffer_good bts (pushbuffer_good bts h)

theorem acode_good (hinc : ∀ x, GoodRes (inc x)) {s : LexSt} (h : ∀ t ∈ s.tkns, GoodTok t)
    (c : Char) : GoodASt (acode bts inc s c) := by
  unfold acode
  repeat' split
  all_goals first
    | exact feed_good bts inc hinc h _
    | exact feed_good bts inc hinc (by simpa using h) _
    | exact lexFinish_good bts (by simpa using h)
    | exact h

theorem astep_good (hinc : ∀ x, GoodRes (inc x)) {a : ASt} (h : GoodASt a) (c : Char) :
    GoodASt (astep bts inc a c) := by
  match a with
  | .done r => exact h
  | .run none s => exact acode_good bts inc hinc h c
  | .run (some l) s =>
    simp only [astep]
    repeat' split
    · exact lexFinish_good bts h
    · exact acode_good bts inc hinc h _
    · exact h

theorem fold_good (hinc : ∀ x, GoodRes (inc x)) (text : List Char) {a : ASt} (h : GoodASt a) :
    GoodASt (text.foldl (astep bts inc) a) := by
  induction text generalizing a with
  | nil => exact h
  | cons c text ih => exact ih (astep_good bts inc hinc h c)

theorem afin0_good {a : ASt} (h : GoodASt a) : GoodRes (afin0 bts a) := by
  match a with
  | .done r => exact h
  | .run _ s => exact lexFinish_good bts h

theorem afinish_good (hinc : ∀ x, GoodRes (inc x)) {a : ASt} (h : GoodASt a) :
    GoodRes (afinish bts inc a) := by
  match a with
  | .done r => exact h
  | .run none s => exact lexFinish_good bts h
  | .run (some l) s =>
    rw [afinish_comment]
    split
    · trivial
    · exact afin0_good bts (acode_good bts inc hinc h _)

theorem lexDepth_good (fs : Str → Option (List Char)) (n : Nat) (text : List Char) :
    GoodRes (lexDepth bts fs n text) := by
  induction n generalizing text with
  | zero => trivial
  | succ n ih =>
    rw [lexDepth_eq_fold]
    have hinc : ∀ x, GoodRes ((includeFile fs (lexDepth bts fs n)) x) := by
      intro x
      simp only [includeFile]
      split
      · trivial
      · exact ih _
    apply afinish_good _ _ hinc
    apply fold_good _ _ hinc
    intro t ht
    cases ht

/-! ### Termination (C02) -/

theorem acode_comment {s s' : LexSt} {c l : Char}
    (h : acode bts inc s c = .run (some l) s') : l = c := by
  unfold acode feed at h
  repeat' split at h
  all_goals simp_all
  exact h.1.symm

theorem astep_comment {a : ASt} {s' : LexSt} {c l : Char}
    (h : astep bts inc a c = .run (some l) s') : l = c := by
  match a with
  | .done r => cases h
  | .run none s => exact acode_comment bts inc h
  | .run (some l) s =>
    simp only [astep] at h
    repeat' split at h
    · cases h
    · exact acode_comment bts inc h
    · cases h; rfl

/-- The machine ends inside a comment only with the last character of the text in hand. -/
theorem fold_comment_last {text : List Char} {s s' : LexSt} {l : Char}
    (h : text.foldl (astep bts inc) (.run none s) = .run (some l) s') :
    text.getLast? = some l := by
  cases hr : text.reverse with
  | nil => rw [List.reverse_eq_nil_iff] at hr; subst hr; cases h
  | cons c r =>
    have : text = r.reverse ++ [c] := by
      have := congrArg List.reverse hr; simpa using this
    subst this
    rw [List.foldl_append] at h
    simp [astep_comment bts inc h]

def NoDiv : LexRes → Prop
  | .diverges => False
  | _ => True

def ANoDiv : ASt → Prop
  | .done r => NoDiv r
  | _ => True

theorem feed_nodiv (hinc : ∀ x, NoDiv (inc x)) (s : LexSt) (c : Char) :
    ANoDiv (feed bts inc s c) := by
  unfold feed
  split
  · rename_i r hr
    unfold lexStep at hr
    repeat' split at hr
    all_goals try (cases hr)
    have := hinc s.buffer
    simpa [ANoDiv] using this
  · trivial

theorem acode_nodiv (hinc : ∀ x, NoDiv (inc x)) (s : LexSt) (c : Char) :
    ANoDiv (acode bts inc s c) := by
  unfold acode
  repeat' split
  all_goals first
    | exact feed_nodiv bts inc hinc _ _
    | trivial

theorem astep_nodiv (hinc : ∀ x, NoDiv (inc x)) {a : ASt} (h : ANoDiv a) (c : Char) :
    ANoDiv (astep bts inc a c) := by
  match a with
  | .done r => exact h
  | .run none s => exact acode_nodiv bts inc hinc s c
  | .run (some l) s =>
    simp only [astep]
    repeat' split
    · trivial
    · exact acode_nodiv bts inc hinc _ _
    · trivial

theorem fold_nodiv (hinc : ∀ x, NoDiv (inc x)) (text : List Char) {a : ASt} (h : ANoDiv a) :
    ANoDiv (text.foldl (astep bts inc) a) := by
  induction text generalizing a with
  | nil => exact h
  | cons c text ih => exact ih (astep_nodiv bts inc hinc h c)

theorem afin0_nodiv {a : ASt} (h : ANoDiv a) : NoDiv (afin0 bts a) := by
  match a with
  | .done r => exact h
  | .run _ s => trivial

theorem lexDepth_nodiv (fs : Str → Option (List Char))
    (hfs : ∀ f t, fs f = some t → t.getLast? ≠ some '#') (n : Nat) (text : List Char)
    (ht : text.getLast? ≠ some '#') : NoDiv (lexDepth bts fs n text) := by
  induction n generalizing text with
  | zero => trivial
  | succ n ih =>
    rw [lexDepth_eq_fold]
    have hinc : ∀ x, NoDiv ((includeFile fs (lexDepth bts fs n)) x) := by
      intro x
      simp only [includeFile]
      split
      · trivial
      · exact ih _ (hfs _ _ (by assumption))
    have hf := fold_nodiv bts _ hinc text (a := .run none LexSt.init) trivial
    simp only
    generalize ha : List.foldl _ _ text = a at hf
    match a, hf, ha with
    | .done r, hf, _ => exact hf
    | .run none s, _, _ => trivial
    | .run (some l) s, _, ha =>
      have hl := fold_comment_last _ _ ha
      rw [afinish_comment, if_neg (by intro h; subst h; exact ht hl)]
      exact afin0_nodiv bts (acode_nodiv bts _ hinc _ _)

/-! ### Scanning mode and layout (C03, C04) -/

def ModeRel : Mode → ASt → Prop
  | .code, .run none s => s.instring = false ∧ s.ininclude = false
  | .comment, .run (some _) s => s.instring = false ∧ s.ininclude = false
  | .string, .run none s => s.instring = true ∧ s.ininclude = false
  | _, _ => False

theorem feed_code {s : LexSt} (hs : s.instring = false) (hi : s.ininclude = false) {c : Char}
    (h1 : c ≠ '<') (h2 : c ≠ '>') :
    ∃ s', feed bts inc s c = .run none s' ∧ s'.instring = (c == '"') ∧ s'.ininclude = false := by
  obtain ⟨p, i, n, b, t⟩ := s
  simp only at hs hi
  subst hs hi
  unfold feed lexStep
  by_cases hq : c = '"'
  · simp [hq]
  · simp only [hq, h1, h2, Bool.false_eq_true, false_and, if_false]
    by_cases h3 : c = '=' ∨ c = '(' ∨ c = ')' ∨ c = '{' ∨ c = '}' ∨ c = ';'
    · simp [h3, hq]
    · by_cases h4 : c = ',' ∨ c = ' '
      · simp [h3, h4, hq]
      · simp [h3, h4, hq]

theorem modeRel_acode {s : LexSt} (hs : s.instring = false) (hi : s.ininclude = false) {c : Char}
    (hc : c ≠ '<' ∧ c ≠ '>' ∧ c ≠ '\x00') :
    ModeRel (Mode.next .code c) (acode bts inc s c) := by
  obtain ⟨p, i, n, b, t⟩ := s
  simp only at hs hi
  subst hs hi
  unfold acode
  simp only [Bool.false_eq_true, if_false, Mode.next]
  by_cases h1 : c = '#'
  · subst h1; simp [ModeRel]
  · simp only [h1, if_false]
    by_cases h2 : c = '\n' ∨ c = ' ' ∨ c = '\t'
    · have hq : c ≠ '"' := by rcases h2 with h | h | h <;> subst h <;> decide
      simp only [h2, if_true, hq, if_false]
      split
      · exact ⟨rfl, rfl⟩
      · obtain ⟨s', he, ha, hb⟩ := feed_code bts inc (s := ⟨true, false, false, b, t⟩) (c := ' ')
          rfl rfl (by decide) (by decide)
        rw [he]
        exact ⟨by simpa using ha, hb⟩
    · simp only [h2, if_false, hc.2.2]
      obtain ⟨s', he, ha, hb⟩ := feed_code bts inc (s := ⟨false, false, false, b, t⟩) (c := c)
          rfl rfl hc.1 hc.2.1
      rw [he]
      by_cases hq : c = '"'
      · simp only [hq, if_true]
        exact ⟨by simpa [hq] using ha, hb⟩
      · simp only [hq, if_false]
        exact ⟨by rw [ha]; exact beq_false_of_ne hq, hb⟩

theorem modeRel_step {m : Mode} {a : ASt} (h : ModeRel m a) {c : Char}
    (hc : c ≠ '<' ∧ c ≠ '>' ∧ c ≠ '\x00') : ModeRel (m.next c) (astep bts inc a c) := by
  match m, a, h with
  | .code, .run none s, h => exact modeRel_acode bts inc h.1 h.2 hc
  | .comment, .run (some l) s, h =>
    simp only [astep, hc.2.2, if_false]
    split
    · rename_i hn
      have := modeRel_acode bts inc h.1 h.2 hc
      simp only [hn, Mode.next] at *
      simpa using this
    · rename_i hn
      simpa [Mode.next, hn, ModeRel] using h
  | .string, .run none s, h =>
    obtain ⟨h1, h2⟩ := h
    simp only [astep, acode, h1, if_true, hc.2.2, if_false, feed, lexStep, Mode.next]
    by_cases hq : c = '"'
    · simp [hq, h2, ModeRel]
    · simp [hq, h2, ModeRel]

theorem modeRel_fold {m : Mode} {a : ASt} (h : ModeRel m a) {text : List Char}
    (ht : Plain text) : ModeRel (text.foldl Mode.next m) (text.foldl (astep bts inc) a) := by
  induction text generalizing m a with
  | nil => exact h
  | cons c text ih =>
    exact ih (modeRel_step bts inc h (ht c (by simp))) (fun x hx => ht x (by simp [hx]))

theorem code_state {text : List Char} (ht : Plain text) (hm : scanMode text = .code) :
    ∃ s, text.foldl (astep bts inc) (.run none LexSt.init) = .run none s ∧
      s.instring = false ∧ s.ininclude = false := by
  have := modeRel_fold bts inc (m := .code) (a := .run none LexSt.init) ⟨rfl, rfl⟩ ht
  rw [show text.foldl Mode.next .code = .code from hm] at this
  generalize text.foldl (astep bts inc) (.run none LexSt.init) = a at this
  match a, this with
  | .run none s, h => exact ⟨s, rfl, h.1, h.2⟩

/-- Inside a comment everything up to the newline is dropped. -/
theorem fold_in_comment (s : LexSt) (l : Char) {cmt : List Char}
    (h : ∀ c ∈ cmt, c ≠ '\n' ∧ c ≠ '\x00') :
    ∃ l', cmt.foldl (astep bts inc) (.run (some l) s) = .run (some l') s := by
  induction cmt generalizing l with
  | nil => exact ⟨l, rfl⟩
  | cons c cmt ih =>
    obtain ⟨h1, h2⟩ := h c (by simp)
    simp only [List.foldl_cons, astep, h1, h2, if_false]
    exact ih c (fun x hx => h x (by simp [hx]))

theorem IsWs.ne_hash {c : Char} (h : IsWs c) : c ≠ '#' := by
  rcases h with h | h | h <;> subst h <;> decide

/-- After one blank outside strings and comments, further blanks change nothing. -/
theorem ws_idem {s : LexSt} (hs : s.instring = false) (hi : s.ininclude = false)
    {w : List Char} (hw : ∀ c ∈ w, IsWs c) (hne : w ≠ []) :
    w.foldl (astep bts inc) (.run none s) =
      .run none (if s.prevws then s else
        { s with prevws := true, tkns := pushbuffer bts s.buffer s.tkns, buffer := [] }) := by
  have one : ∀ (s : LexSt), s.instring = false → s.ininclude = false → ∀ c, IsWs c →
      astep bts inc (.run none s) c = .run none (if s.prevws then s else
        { s with prevws := true, tkns := pushbuffer bts s.buffer s.tkns, buffer := [] }) := by
    intro s hs hi c hc
    obtain ⟨p, i, n, b, t⟩ := s
    simp only at hs hi
    subst hs hi
    have hc' : c = '\n' ∨ c = ' ' ∨ c = '\t' := hc
    simp only [astep, acode, Bool.false_eq_true, if_false, hc.ne_hash, hc', if_true]
    cases p
    · simp [feed, lexStep]
    · rfl
  cases w with
  | nil => exact absurd rfl hne
  | cons c w =>
    rw [List.foldl_cons, one s hs hi c (hw c (by simp))]
    have key : ∀ (t : LexSt), t.instring = false → t.prevws = true →
        w.foldl (astep bts inc) (.run none t) = .run none t := by
      intro t ht hp
      have hw' : ∀ c ∈ w, IsWs c := fun x hx => hw x (by simp [hx])
      clear hw hne
      induction w with
      | nil => rfl
      | cons c w ih =>
        have hc := hw' c (by simp)
        rw [List.foldl_cons]
        have : astep bts inc (.run none t) c = .run none t := by
          simp [astep, acode, ht, hp, hc.ne_hash, show c = '\n' ∨ c = ' ' ∨ c = '\t' from hc]
        rw [this]
        exact ih (fun x hx => hw' x (by simp [hx]))
    apply key
    · split <;> simpa using hs
    · split <;> simp_all

def Sim : ASt → ASt → Prop
  | .run cm s, .run cm' s' => cm = cm' ∧ s' = { s with prevws := s'.prevws } ∧
      (s.prevws = s'.prevws ∨ s.buffer = [] ∧ s.instring = false ∧ s.ininclude = false)
  | .done r, .done r' => r.erase = r'.erase
  | _, _ => False

theorem Sim.rfl' (a : ASt) : Sim a a := by
  cases a <;> simp [Sim]

theorem Sim.acode {s s' : LexSt} (h : s' = { s with prevws := s'.prevws })
    (hd : s.prevws = s'.prevws ∨ s.buffer = [] ∧ s.instring = false ∧ s.ininclude = false)
    (c : Char) : Sim (acode bts inc s c) (acode bts inc s' c) := by
  rcases hd with hd | ⟨hb, hs, hi⟩
  · have : s' = s := by rw [h, ← hd]
    subst this
    exact Sim.rfl' _
  · obtain ⟨p, i, n, b, t⟩ := s
    obtain ⟨p', i', n', b', t'⟩ := s'
    simp only [LexSt.mk.injEq, true_and] at h
    obtain ⟨rfl, rfl, rfl, rfl⟩ := h
    simp only at hb hs hi
    subst hb hs hi
    unfold Softlib.Config.acode
    simp only [Bool.false_eq_true, if_false]
    by_cases h1 : c = '#'
    · simp [h1, Sim]
    · simp only [h1, if_false]
      by_cases h2 : c = '\n' ∨ c = ' ' ∨ c = '\t'
      · simp only [h2, if_true]
        cases p <;> cases p' <;> simp [Sim, feed, lexStep, pushbuffer]
      · simp only [h2, if_false]
        split
        · simp [Sim]
        · exact Sim.rfl' _

theorem Sim.step {a b : ASt} (h : Sim a b) (c : Char) :
    Sim (astep bts inc a c) (astep bts inc b c) := by
  match a, b, h with
  | .done r, .done r', h => exact h
  | .run none s, .run none s', ⟨_, h1, h2⟩ => exact Sim.acode bts inc h1 h2 c
  | .run (some l) s, .run (some l') s', ⟨hl, h1, h2⟩ =>
    simp only [astep]
    by_cases h0 : c = '\x00'
    · simp only [h0, if_true, Sim]
      rw [h1]; simp [lexFinish, LexRes.erase]
    · by_cases hn : c = '\n'
      · simp only [hn, if_true]
        exact Sim.acode bts inc h1 h2 _
      · simp only [h0, hn, if_false]
        exact ⟨rfl, h1, h2⟩

theorem Sim.fold {a b : ASt} (h : Sim a b) (text : List Char) :
    Sim (text.foldl (astep bts inc) a) (text.foldl (astep bts inc) b) := by
  induction text generalizing a b with
  | nil => exact h
  | cons c text ih => exact ih (h.step bts inc c)

theorem Sim.fin0 {a b : ASt} (h : Sim a b) : (afin0 bts a).erase = (afin0 bts b).erase := by
  match a, b, h with
  | .done r, .done r', h => exact h
  | .run _ s, .run _ s', ⟨_, h1, h2⟩ =>
    simp only [afin0, lexFinish]
    rw [h1]
    simp [LexRes.erase]

theorem Sim.finish {a b : ASt} (h : Sim a b) :
    (afinish bts inc a).erase = (afinish bts inc b).erase := by
  match a, b, h with
  | .done r, .done r', h => exact h
  | .run none s, .run none s', h => exact Sim.fin0 bts (a := .run none s) (b := .run none s') h
  | .run (some l) s, .run (some l') s', ⟨hl, h1, h2⟩ =>
    cases hl
    simp only [afinish_comment]
    split
    · rfl
    · exact Sim.fin0 bts (Sim.acode bts inc h1 h2 _)

theorem punct_step {s : LexSt} (hs : s.instring = false) (hi : s.ininclude = false) {c : Char}
    (hc : IsPunct c) :
    astep bts inc (.run none s) c = .run none { s with
      prevws := false, buffer := [],
      tkns := pushbuffer bts [c] (pushbuffer bts s.buffer s.tkns) } := by
  obtain ⟨p, i, n, b, t⟩ := s
  simp only at hs hi
  subst hs hi
  rcases hc with h | h | h | h | h | h <;> subst h <;> simp [astep, acode, feed, lexStep]

end
end Softlib.Config
