/-
C127: including a file is writing its contents in place.

The specification (`Part`, `renderParts`, `Expands`) describes a text with inclusion marks and the
text it stands for, without reference to how the lexer reads either.
-/
import Verif.Config.InterpModel
import Verif.Config.LexProps

namespace Softlib.Config

/-! ### Specification -/

/-- A part of a configuration file: text, or the inclusion of another file. -/
inductive Part where
  | text (t : List Char)
  | file (name : Str)
  deriving DecidableEq, Repr

/-- How a part is written. -/
def Part.render : Part → List Char
  | .text t => t
  | .file f => '<' :: (f ++ ['>'])

/-- How a file is written. -/
def renderParts (ps : List Part) : List Char := ps.flatMap Part.render

/-- File names that can be included: without `>`, `#`, newline, tab and NUL, and without two
successive blanks. -/
def IncNameOk : Str → Prop
  | [] => True
  | c :: f => c ≠ '>' ∧ c ≠ '#' ∧ c ≠ '\n' ∧ c ≠ '\t' ∧ c ≠ '\x00' ∧
      (c = ' ' → f.head? ≠ some ' ') ∧ IncNameOk f

/-- The kind of the last word of a text. -/
def lastKind (bts : List Str) (text : List Char) : Option TokTy :=
  ((lexPlain bts text).tokens.bind fun ts => ts.dropLast.getLast?).map Tok.ty

/-- The text does not end with `=`, a value or a block type, after which the kind of a word is
decided by what stands before. -/
def Settled (bts : List Str) (text : List Char) : Prop :=
  lastKind bts text ≠ some .equals ∧ lastKind bts text ≠ some .value ∧
    lastKind bts text ≠ some .blocktype

/-- `Expands bts files src e`: the file with the parts `src` stands for the text `e`, in which
every inclusion mark is replaced by what the named file stands for, between blanks.  Inclusion
marks stand outside strings and comments, and not in the middle of a definition; included files
end outside strings and comments. -/
inductive Expands (bts : List Str) (files : Str → Option (List Part)) :
    List Part → List Char → Prop where
  | nil : Expands bts files [] []
  | text {l : List Part} {e t : List Char} : Expands bts files l e → Plain t →
      Expands bts files (l ++ [.text t]) (e ++ t)
  | file {l body : List Part} {e b : List Char} {f : Str} : Expands bts files l e →
      scanMode e = .code → Settled bts e → IncNameOk f → files f = some body →
      Expands bts files body b → scanMode b = .code →
      Expands bts files (l ++ [.file f]) (e ++ (' ' :: (b ++ [' '])))

/-- The file system with these files. -/
def fileTexts (files : Str → Option (List Part)) (f : Str) : Option (List Char) :=
  (files f).map renderParts

/-! ### Outcomes do not depend on the admitted depth -/

section
variable (bts : List Str)

/-- The second function of inclusion agrees with the first wherever that is not too deep. -/
def IncLe (inc inc' : Str → LexRes) : Prop := ∀ f, inc f ≠ .tooDeep → inc' f = inc f

/-- Same state, or the first is too deep. -/
def StLe (a b : ASt) : Prop := a = .done .tooDeep ∨ a = b

theorem feed_le {inc inc' : Str → LexRes} (h : IncLe inc inc') (s : LexSt) (c : Char) :
    StLe (feed bts inc s c) (feed bts inc' s c) := by
  by_cases hc : c = '>'
  · subst hc
    by_cases hi : inc s.buffer = .tooDeep
    · by_cases hs : s.instring = true
      · right; simp [feed, lexStep, hs]
      · left; simp [feed, lexStep, hs, hi]
    · have := h _ hi
      right
      unfold feed lexStep
      rw [this]
  · exact Or.inr (feed_inc bts inc inc' s hc)

theorem acode_le {inc inc' : Str → LexRes} (h : IncLe inc inc') (s : LexSt) (c : Char) :
    StLe (acode bts inc s c) (acode bts inc' s c) := by
  unfold acode
  repeat' split
  all_goals first
    | exact feed_le bts h _ _
    | exact Or.inr rfl

theorem astep_le {inc inc' : Str → LexRes} (h : IncLe inc inc') {a b : ASt} (hab : StLe a b)
    (c : Char) : StLe (astep bts inc a c) (astep bts inc' b c) := by
  rcases hab with rfl | rfl
  · exact Or.inl rfl
  · match a with
    | .done r => exact Or.inr rfl
    | .run none s => exact acode_le bts h s c
    | .run (some l) s =>
      simp only [astep]
      repeat' split
      · exact Or.inr rfl
      · exact acode_le bts h s c
      · exact Or.inr rfl

theorem fold_le {inc inc' : Str → LexRes} (h : IncLe inc inc') (text : List Char) {a b : ASt}
    (hab : StLe a b) :
    StLe (text.foldl (astep bts inc) a) (text.foldl (astep bts inc') b) := by
  induction text generalizing a b with
  | nil => exact hab
  | cons c text ih => exact ih (astep_le bts h hab c)

theorem afinish_le {inc inc' : Str → LexRes} (h : IncLe inc inc') {a b : ASt} (hab : StLe a b)
    (hr : afinish bts inc a ≠ .tooDeep) : afinish bts inc' b = afinish bts inc a := by
  rcases hab with rfl | rfl
  · exact absurd rfl hr
  · match a, hr with
    | .done r, _ => rfl
    | .run none s, _ => rfl
    | .run (some l) s, hr =>
      rw [afinish_comment] at hr ⊢
      rw [afinish_comment]
      split
      · rfl
      · rename_i hl
        rw [if_neg hl] at hr
        rcases acode_le bts h s l with h1 | h1
        · rw [h1] at hr; exact absurd rfl hr
        · rw [h1]

/-- A greater depth does not change an outcome. -/
theorem lexDepth_mono (fs : Str → Option (List Char)) (n : Nat) (text : List Char)
    (hr : lexDepth bts fs n text ≠ .tooDeep) :
    lexDepth bts fs (n + 1) text = lexDepth bts fs n text := by
  induction n generalizing text with
  | zero => exact absurd rfl hr
  | succ n ih =>
    have hle : IncLe (includeFile fs (lexDepth bts fs n)) (includeFile fs (lexDepth bts fs (n + 1))) := by
      intro f hf
      unfold includeFile at hf ⊢
      split
      · rfl
      · rename_i t ht
        rw [ht] at hf
        exact ih t hf
    rw [lexDepth_eq_fold] at hr ⊢
    rw [lexDepth_eq_fold bts fs n]
    exact afinish_le bts hle (fold_le bts hle text (Or.inr rfl)) hr

theorem lexDepth_mono_le (fs : Str → Option (List Char)) {n m : Nat} (hnm : n ≤ m)
    (text : List Char) (hr : lexDepth bts fs n text ≠ .tooDeep) :
    lexDepth bts fs m text = lexDepth bts fs n text := by
  induction hnm with
  | refl => rfl
  | step h ih => rw [lexDepth_mono bts fs _ text (by rw [ih]; exact hr), ih]

/-! ### Reading a text after other tokens -/

/-- After these tokens a word has the kind it has at the beginning. -/
def SettledToks (ts : List Tok) : Prop :=
  ∀ t, ts.getLast? = some t → t.ty ≠ .equals ∧ t.ty ≠ .value ∧ t.ty ≠ .blocktype

theorem kindOf_settled {T : List Tok} (hT : SettledToks T) (w : Str) :
    kindOf bts (T.getLast?.map Tok.ty) w = kindOf bts none w := by
  cases h : T.getLast? with
  | none => rfl
  | some t =>
    obtain ⟨h1, h2, h3⟩ := hT t h
    simp only [Option.map_some]
    unfold kindOf
    revert h1 h2 h3
    cases t.ty <;> simp

theorem pushbuffer_after {T : List Tok} (hT : SettledToks T) (b : Str) (ts : List Tok) :
    pushbuffer bts b (T ++ ts) = T ++ pushbuffer bts b ts := by
  by_cases hb : b = []
  · subst hb; simp
  · rw [pushbuffer_cons bts hb, pushbuffer_cons bts hb]
    cases ts with
    | nil => simp [kindOf_settled bts hT]
    | cons t ts =>
      rw [List.getLast?_append, List.getLast?_cons]
      simp

/-- The state with the tokens `T` in front. -/
def LexSt.after (T : List Tok) (s : LexSt) : LexSt := { s with tkns := T ++ s.tkns }

def ASt.after (T : List Tok) : ASt → ASt
  | .run cm s => .run cm (s.after T)
  | .done r => .done r

theorem feed_after (inc : Str → LexRes) {T : List Tok} (hT : SettledToks T) (s : LexSt) {c : Char}
    (hc : c ≠ '>') : feed bts inc (s.after T) c = (feed bts inc s c).after T := by
  obtain ⟨p, i, n, b, t⟩ := s
  unfold feed lexStep
  simp only [hc, if_false, LexSt.after]
  by_cases h1 : i = true ∧ c ≠ '"'
  · simp [h1, ASt.after, LexSt.after]
  by_cases h2 : n = true ∧ c ≠ '>'
  · rw [if_neg h1, if_pos h2, if_neg h1, if_pos h2]
    rfl
  simp only [h1, h2, if_false]
  by_cases h3 : c = '"'
  · simp [h3, ASt.after, LexSt.after, pushbuffer_after bts hT]
  by_cases h4 : c = '<'
  · simp [h4, ASt.after, LexSt.after, pushbuffer_after bts hT]
  by_cases h5 : c = '=' ∨ c = '(' ∨ c = ')' ∨ c = '{' ∨ c = '}' ∨ c = ';'
  · simp [h3, h4, h5, ASt.after, LexSt.after, pushbuffer_after bts hT]
  by_cases h6 : c = ',' ∨ c = ' '
  · simp [h3, h4, h5, h6, ASt.after, LexSt.after, pushbuffer_after bts hT]
  · simp [h3, h4, h5, h6, ASt.after, LexSt.after]

theorem acode_after (inc : Str → LexRes) {T : List Tok} (hT : SettledToks T) (s : LexSt) {c : Char}
    (hc : c ≠ '>') (h0 : c ≠ '\x00') :
    acode bts inc (s.after T) c = (acode bts inc s c).after T := by
  have hf : ∀ (x : LexSt) (d : Char), d ≠ '>' →
      feed bts inc (x.after T) d = (feed bts inc x d).after T := fun x d hd =>
    feed_after bts inc hT x hd
  obtain ⟨p, i, n, b, t⟩ := s
  unfold acode
  simp only [h0, if_false]
  cases i
  · simp only [LexSt.after, Bool.false_eq_true, if_false]
    by_cases h1 : c = '#'
    · simp [h1, ASt.after, LexSt.after]
    · simp only [h1, if_false]
      by_cases h2 : c = '\n' ∨ c = ' ' ∨ c = '\t'
      · simp only [h2, if_true]
        cases p
        · exact hf ⟨true, false, n, b, t⟩ ' ' (by decide)
        · simp [ASt.after, LexSt.after]
      · simp only [h2, if_false]
        exact hf ⟨false, false, n, b, t⟩ c hc
  · simp only [LexSt.after, if_true]
    exact hf ⟨p, true, n, b, t⟩ c hc

theorem astep_after (inc : Str → LexRes) {T : List Tok} (hT : SettledToks T) (a : ASt) {c : Char}
    (hc : c ≠ '>') (h0 : c ≠ '\x00') :
    astep bts inc (a.after T) c = (astep bts inc a c).after T := by
  match a with
  | .done r => rfl
  | .run none s => exact acode_after bts inc hT s hc h0
  | .run (some l) s =>
    simp only [ASt.after, astep, h0, if_false]
    split
    · exact acode_after bts inc hT s hc h0
    · rfl

theorem fold_after (inc : Str → LexRes) {T : List Tok} (hT : SettledToks T) {t : List Char}
    (ht : Plain t) (a : ASt) :
    t.foldl (astep bts inc) (a.after T) = (t.foldl (astep bts inc) a).after T := by
  induction t generalizing a with
  | nil => rfl
  | cons c t ih =>
    obtain ⟨-, h1, h2⟩ := ht c (by simp)
    rw [List.foldl_cons, List.foldl_cons, astep_after bts inc hT a h1 h2]
    exact ih (fun x hx => ht x (by simp [hx])) _

/-! ### After a blank nothing is pending -/

def Blank : ASt → Prop
  | .run _ s => s.ininclude = false ∧ (s.prevws = true → s.buffer = [] ∧ s.instring = false)
  | .done _ => True

theorem feed_blank (inc : Str → LexRes) (i : Bool) (b : Str) (t : List Tok) {c : Char}
    (h1 : c ≠ '<') (h2 : c ≠ '>') : Blank (feed bts inc ⟨false, i, false, b, t⟩ c) := by
  unfold feed lexStep
  simp only [h1, h2, if_false, Bool.false_eq_true, false_and]
  by_cases h3 : i = true ∧ c ≠ '"'
  · simp [h3, Blank]
  rw [if_neg h3]
  by_cases h4 : c = '"'
  · simp [h4, Blank]
  by_cases h5 : c = '=' ∨ c = '(' ∨ c = ')' ∨ c = '{' ∨ c = '}' ∨ c = ';'
  · simp [h3, h4, h5, Blank]
  by_cases h6 : c = ',' ∨ c = ' '
  · simp [h3, h4, h5, h6, Blank]
  · simp [h3, h4, h5, h6, Blank]

theorem acode_blank (inc : Str → LexRes) {s : LexSt} (hs : Blank (.run none s)) {c : Char}
    (h1 : c ≠ '<') (h2 : c ≠ '>') : Blank (acode bts inc s c) := by
  obtain ⟨p, i, n, b, t⟩ := s
  obtain ⟨hn, hs⟩ := hs
  simp only at hn hs
  subst hn
  unfold acode
  cases i
  · simp only [Bool.false_eq_true, if_false]
    split
    · exact ⟨rfl, hs⟩
    split
    · cases p
      · simp [feed, lexStep, Blank]
      · simpa [Blank] using hs
    split
    · trivial
    · exact feed_blank bts inc _ _ _ h1 h2
  · have hp : p = false := by
      cases p
      · rfl
      · simpa using (hs rfl).2
    subst hp
    simp only [if_true]
    split
    · trivial
    · exact feed_blank bts inc _ _ _ h1 h2

theorem astep_blank (inc : Str → LexRes) {a : ASt} (ha : Blank a) {c : Char} (h1 : c ≠ '<')
    (h2 : c ≠ '>') : Blank (astep bts inc a c) := by
  match a with
  | .done r => trivial
  | .run none s => exact acode_blank bts inc ha h1 h2
  | .run (some l) s =>
    simp only [astep]
    repeat' split
    · trivial
    · exact acode_blank bts inc ha h1 h2
    · exact ha

theorem fold_blanks (inc : Str → LexRes) {t : List Char} (ht : Plain t) {a : ASt} (ha : Blank a) :
    Blank (t.foldl (astep bts inc) a) := by
  induction t generalizing a with
  | nil => exact ha
  | cons c t ih =>
    exact ih (fun x hx => ht x (by simp [hx]))
      (astep_blank bts inc ha (ht c (by simp)).1 (ht c (by simp)).2.1)

/-- The state after a text without inclusions that ends outside strings and comments. -/
theorem plain_state (inc : Str → LexRes) {e : List Char} (he : Plain e)
    (hm : scanMode e = .code) :
    ∃ s, e.foldl (astep bts inc) (.run none LexSt.init) = .run none s ∧ Idle s := by
  obtain ⟨s, hs, h1, h2⟩ := code_state bts inc he hm
  refine ⟨s, hs, h1, h2, fun hp => ?_⟩
  have := fold_blanks bts inc he (a := .run none LexSt.init) (by simp [Blank, LexSt.init])
  rw [hs] at this
  exact (this.2 hp).1

theorem lexPlain_state {inc : Str → LexRes} {e : List Char} (he : Plain e) {s : LexSt}
    (hs : e.foldl (astep bts inc) (.run none LexSt.init) = .run none s) :
    lexPlain bts e = lexFinish bts s := by
  rw [lexPlain, lexDepth_eq_fold]
  simp only
  rw [fold_inc bts _ inc _ (fun c hc => (he c hc).2.1), hs]
  rfl

theorem settled_toks {inc : Str → LexRes} {e : List Char} (he : Plain e) {s : LexSt}
    (hs : e.foldl (astep bts inc) (.run none LexSt.init) = .run none s) (hset : Settled bts e) :
    SettledToks (s.flush bts) := by
  have hk : lastKind bts e = (s.flush bts).getLast?.map Tok.ty := by
    simp [lastKind, lexPlain_state bts he hs, lexFinish, LexRes.tokens, LexSt.flush]
  intro t ht
  obtain ⟨h1, h2, h3⟩ := hset
  rw [hk, ht] at h1 h2 h3
  simp only [Option.map_some, ne_eq, Option.some.injEq] at h1 h2 h3
  exact ⟨h1, h2, h3⟩

/-- Reading the name of an included file. -/
theorem fold_name (inc : Str → LexRes) (T : List Tok) {f : Str} (hf : IncNameOk f) (p : Bool) (b : Str)
    (hp : p = true → f.head? ≠ some ' ') :
    ∃ p', f.foldl (astep bts inc) (.run none ⟨p, false, true, b, T⟩)
      = .run none ⟨p', false, true, b ++ f, T⟩ := by
  induction f generalizing p b with
  | nil => exact ⟨p, by simp⟩
  | cons c f ih =>
    obtain ⟨h1, h2, h3, h4, h5, h6, h7⟩ := hf
    rw [List.foldl_cons]
    by_cases hb : c = ' '
    · subst hb
      have hpf : p = false := by
        cases p
        · rfl
        · simp at hp
      subst hpf
      have : astep bts inc (.run none ⟨false, false, true, b, T⟩) ' '
          = .run none ⟨true, false, true, b ++ [' '], T⟩ := by
        simp [astep, acode, feed, lexStep]
      rw [this]
      obtain ⟨p', hp'⟩ := ih h7 true (b ++ [' ']) (fun _ => h6 rfl)
      exact ⟨p', by rw [hp']; simp⟩
    · have : astep bts inc (.run none ⟨p, false, true, b, T⟩) c
          = .run none ⟨false, false, true, b ++ [c], T⟩ := by
        simp [astep, acode, feed, lexStep, h1, h2, h3, h4, h5, hb]
      rw [this]
      obtain ⟨p', hp'⟩ := ih h7 false (b ++ [c]) (by simp)
      exact ⟨p', by rw [hp']; simp⟩

/-- Reading an inclusion mark. -/
theorem fold_include (inc : Str → LexRes) {s : LexSt} (h1 : s.instring = false)
    (h2 : s.ininclude = false) {f : Str} (hf : IncNameOk f) :
    (Part.render (.file f)).foldl (astep bts inc) (.run none s) =
      match inc f with
      | .ok t pw ins ini => .run none ⟨pw, ins, ini, [], s.flush bts ++ t.dropLast⟩
      | r => .done r := by
  obtain ⟨p, i, n, b, t⟩ := s
  simp only at h1 h2
  subst h1 h2
  simp only [Part.render, List.foldl_cons, List.foldl_append, List.foldl_nil]
  have e1 : astep bts inc (.run none ⟨p, false, false, b, t⟩) '<'
      = .run none ⟨false, false, true, [], pushbuffer bts b t⟩ := by
    simp [astep, acode, feed, lexStep]
  obtain ⟨p', e2⟩ := fold_name bts inc (pushbuffer bts b t) hf false [] (by simp)
  rw [e1, e2]
  simp only [List.nil_append, astep, acode, feed, lexStep, LexSt.flush]
  cases inc f <;> simp

theorem Plain.append {a b : List Char} (ha : Plain a) (hb : Plain b) : Plain (a ++ b) := by
  intro c hc
  rcases List.mem_append.1 hc with h | h
  · exact ha c h
  · exact hb c h

theorem renderParts_snoc (l : List Part) (p : Part) :
    renderParts (l ++ [p]) = renderParts l ++ p.render := by
  simp [renderParts]

theorem expands_plain {files : Str → Option (List Part)} {src : List Part} {e : List Char}
    (h : Expands bts files src e) : Plain e := by
  induction h with
  | nil => intro c hc; cases hc
  | text _ ht ih => exact ih.append ht
  | file _ _ _ _ _ _ _ ih1 ih2 =>
    refine ih1.append ?_
    intro c hc
    rcases List.mem_cons.1 hc with rfl | hc
    · decide
    · rcases List.mem_append.1 hc with hc | hc
      · exact ih2 c hc
      · rw [List.mem_singleton.1 hc]; decide

theorem sim_code {a : ASt} {s : LexSt} (h : Sim a (.run none s)) (h1 : s.instring = false)
    (h2 : s.ininclude = false) :
    ∃ s', a = .run none s' ∧ s'.instring = false ∧ s'.ininclude = false ∧
      s'.flush bts = s.flush bts := by
  match a, h with
  | .run cm s', ⟨hc, h3, h4⟩ =>
    subst hc
    obtain ⟨p, i, n, b, t⟩ := s
    obtain ⟨p', i', n', b', t'⟩ := s'
    simp only [LexSt.mk.injEq, true_and] at h3
    obtain ⟨rfl, rfl, rfl, rfl⟩ := h3
    exact ⟨_, rfl, h1, h2, rfl⟩

/-- The file stands for the text: reading either leaves the lexer in the same state, but for the
flag that tells of a blank. -/
theorem expands_sim {files : Str → Option (List Part)} {src : List Part} {e : List Char}
    (h : Expands bts files src e) :
    ∃ N, ∀ n, N ≤ n →
      Sim ((renderParts src).foldl
          (astep bts (includeFile (fileTexts files) (lexDepth bts (fileTexts files) n)))
          (.run none LexSt.init))
        (e.foldl (astep bts (includeFile (fileTexts files) (lexDepth bts (fileTexts files) n)))
          (.run none LexSt.init)) := by
  induction h with
  | nil => exact ⟨0, fun n _ => Sim.rfl' _⟩
  | text _ ht ih =>
    obtain ⟨N, ih⟩ := ih
    refine ⟨N, fun n hn => ?_⟩
    rw [renderParts_snoc, List.foldl_append, List.foldl_append]
    exact Sim.fold bts _ (ih n hn) _
  | @file l body e b f he hm hset hf hbody hb hmb ih1 ih2 =>
    obtain ⟨N1, ih1⟩ := ih1
    obtain ⟨N2, ih2⟩ := ih2
    refine ⟨max N1 (N2 + 1), fun n hn => ?_⟩
    obtain ⟨n, rfl⟩ : ∃ m, n = m + 1 := ⟨n - 1, by omega⟩
    have hs1 := ih1 (n + 1) (by omega)
    have hs2 := ih2 n (by omega)
    have hpe := expands_plain bts he
    have hpb := expands_plain bts hb
    rw [renderParts_snoc, List.foldl_append, List.foldl_append]
    have hlex := lexDepth_eq_fold bts (fileTexts files) n (renderParts body)
    generalize hi : includeFile (fileTexts files) (lexDepth bts (fileTexts files) (n + 1)) = inc at *
    generalize hi' : includeFile (fileTexts files) (lexDepth bts (fileTexts files) n) = inc' at *
    -- the text before
    obtain ⟨s, es, idle⟩ := plain_state bts inc hpe hm
    rw [es] at hs1 ⊢
    obtain ⟨s', ea, i1, i2, fl⟩ := sim_code bts hs1 idle.1 idle.2.1
    rw [ea, fold_include bts inc i1 i2 hf]
    -- the included file
    obtain ⟨z, ez, idz⟩ := plain_state bts inc' hpb hmb
    rw [ez] at hs2
    obtain ⟨z', ea', j1, j2, flz⟩ := sim_code bts hs2 idz.1 idz.2.1
    have hinc : inc f = .ok (z.flush bts ++ [eofTok]) z'.prevws false false := by
      rw [← hi]
      simp only [includeFile, fileTexts, hbody, Option.map_some]
      refine hlex.trans ?_
      simp only
      rw [ea', afinish_none, lexFinish, j1, j2]
      change LexRes.ok (z'.flush bts ++ [eofTok]) _ _ _ = _
      rw [flz]
    rw [hinc]
    simp only [List.dropLast_concat, fl]
    -- the text that stands for it
    have hT := settled_toks bts hpe es hset
    simp only [List.foldl_cons, List.foldl_append, List.foldl_nil]
    obtain ⟨s1, e1, id1, b1, t1⟩ := fold_blank bts inc idle (c := ' ') (by simp [IsWs])
    rw [e1]
    have ez' : b.foldl (astep bts inc) (.run none LexSt.init) = .run none z := by
      rw [fold_inc bts inc inc' _ (fun c hc => (hpb c hc).2.1), ez]
    have hfr := fold_after bts inc hT hpb (.run none LexSt.init)
    rw [ez'] at hfr
    have hsim : Sim (.run none s1) ((ASt.run none LexSt.init).after (s.flush bts)) := by
      obtain ⟨p, i, n, b, t⟩ := s1
      obtain ⟨d1, d2, -⟩ := id1
      simp only at b1 t1 d1 d2
      subst b1 t1 d1 d2
      simp [Sim, ASt.after, LexSt.after, LexSt.init]
    have h2 := Sim.step bts inc (Sim.fold bts inc hsim b) ' '
    rw [hfr] at h2
    have idza : Idle (z.after (s.flush bts)) := idz
    obtain ⟨s3, e3, id3, b3, t3⟩ := fold_blank bts inc idza (c := ' ') (by simp [IsWs])
    have h3 : astep bts inc ((ASt.run none z).after (s.flush bts)) ' ' = .run none s3 := e3
    rw [h3] at h2
    generalize List.foldl (astep bts inc) (.run none s1) b = w at h2 ⊢
    generalize astep bts inc w ' ' = w' at h2 ⊢
    have ht3 : s3.tkns = s.flush bts ++ z.flush bts := by
      rw [t3]
      exact pushbuffer_after bts hT _ _
    match w', h2 with
    | .run cm s4, ⟨hc, h5, h6⟩ =>
      subst hc
      obtain ⟨p, i, n, bb, t⟩ := s3
      obtain ⟨p', i', n', b', t'⟩ := s4
      obtain ⟨d1, d2, -⟩ := id3
      simp only [LexSt.mk.injEq, true_and] at h5
      simp only at b3 ht3 d1 d2
      obtain ⟨rfl, rfl, rfl, rfl⟩ := h5
      subst b3 ht3 d1 d2
      simp [Sim]

end
end Softlib.Config

namespace Softlib

open Config

/-! ### C127 -/

/-- C127: for every text with inclusion marks, nested to any depth, the lexer gives what it gives
for the text without them that it stands for. -/
theorem C127_in_place_partial (bts : List Str) (files : Str → Option (List Part))
    (src : List Part) (e : List Char) (h : Expands bts files src e) :
    ∃ N, ∀ n, N ≤ n →
      (lexDepth bts (fileTexts files) n (renderParts src)).erase = (lexPlain bts e).erase := by
  obtain ⟨N, hN⟩ := expands_sim bts h
  refine ⟨N + 1, fun n hn => ?_⟩
  obtain ⟨n, rfl⟩ : ∃ m, n = m + 1 := ⟨n - 1, by omega⟩
  have hp := expands_plain bts h
  have : lexPlain bts e = lexDepth bts (fileTexts files) (n + 1) e :=
    lexDepth_inc bts _ _ 0 n (fun c hc => (hp c hc).2.1)
  rw [this, lexDepth_eq_fold, lexDepth_eq_fold]
  exact Sim.finish bts _ (hN n (by omega))

/-- C127: loading the text with inclusion marks gives what loading the text it stands for gives:
the same tree and error flag, the same exception. -/
theorem C127_load_partial (reg : Registry) (err : Bool) (files : Str → Option (List Part))
    (src : List Part) (e : List Char) (h : Expands reg files src e) :
    ∃ N, ∀ n, N ≤ n → fromString reg (fileTexts files) n err (renderParts src) =
      fromString reg (fun _ => none) 1 err e := by
  obtain ⟨N, hN⟩ := C127_in_place_partial reg files src e h
  refine ⟨N, fun n hn => ?_⟩
  have := hN n hn
  unfold fromString
  rw [lexPlain] at this
  revert this
  cases lexDepth reg (fileTexts files) n (renderParts src) <;>
    cases lexDepth reg (fun _ => none) 1 e <;> simp [LexRes.erase]
  rintro rfl _ _
  rfl

/-- C127: a file that cannot be opened ends the load with an exception, whatever follows. -/
theorem C127_missing (bts : List Str) (files : Str → Option (List Part)) (l r : List Part)
    (e : List Char) (f : Str) (h : Expands bts files l e) (hm : scanMode e = .code)
    (hf : IncNameOk f) (hno : files f = none) :
    ∃ N, ∀ n, N ≤ n →
      lexDepth bts (fileTexts files) n (renderParts (l ++ .file f :: r)) = .throw := by
  obtain ⟨N, hN⟩ := expands_sim bts h
  refine ⟨N + 1, fun n hn => ?_⟩
  obtain ⟨n, rfl⟩ : ∃ m, n = m + 1 := ⟨n - 1, by omega⟩
  have hs := hN n (by omega)
  rw [lexDepth_eq_fold]
  have hinc : includeFile (fileTexts files) (lexDepth bts (fileTexts files) n) f = .throw := by
    simp [includeFile, fileTexts, hno]
  simp only
  generalize includeFile (fileTexts files) (lexDepth bts (fileTexts files) n) = inc at *
  obtain ⟨s, es, idle⟩ := plain_state bts inc (expands_plain bts h) hm
  rw [es] at hs
  obtain ⟨s', ea, i1, i2, -⟩ := sim_code bts hs idle.1 idle.2.1
  have : renderParts (l ++ .file f :: r) = renderParts l ++ (Part.render (.file f) ++ renderParts r) := by
    simp [renderParts]
  rw [this, List.foldl_append, List.foldl_append, ea, fold_include bts inc i1 i2 hf, hinc]
  simp [afinish, afin0]

/-- C127, wherever the mark stands: the tokens of the file, read by itself, are inserted as they
are; if reading the file ends otherwise, so does reading the text. -/
theorem C127_inserted (bts : List Str) (fs : Str → Option (List Char)) (n : Nat)
    (pre body : List Char) (f : Str) (hp : Plain pre) (hm : scanMode pre = .code) (hf : IncNameOk f)
    (hb : fs f = some body) :
    (∀ us ts, (lexPlain bts pre).tokens = some (us ++ [eofTok]) →
      (lexDepth bts fs n body).tokens = some ts →
      (lexDepth bts fs (n + 1) (pre ++ ('<' :: (f ++ ['>'])))).tokens = some (us ++ ts)) ∧
    ((lexDepth bts fs n body).tokens = none →
      lexDepth bts fs (n + 1) (pre ++ ('<' :: (f ++ ['>']))) = lexDepth bts fs n body) := by
  have hg := lexDepth_good bts fs n body
  rw [lexDepth_eq_fold]
  have hinc : includeFile fs (lexDepth bts fs n) f = lexDepth bts fs n body := by
    simp [includeFile, hb]
  simp only
  generalize includeFile fs (lexDepth bts fs n) = inc at *
  obtain ⟨s, es, idle⟩ := plain_state bts inc hp hm
  have hr := fold_include bts inc idle.1 idle.2.1 hf
  rw [hinc] at hr
  rw [List.foldl_append, es]
  change (∀ us ts, _ → _ → (afinish bts inc ((Part.render (.file f)).foldl _ _)).tokens = _) ∧
    (_ → afinish bts inc ((Part.render (.file f)).foldl _ _) = _)
  rw [hr]
  cases hl : lexDepth bts fs n body with
  | ok ts pw ins ini =>
    rw [hl] at hg
    obtain ⟨vs, rfl, -⟩ := hg
    refine ⟨fun us ts h1 h2 => ?_, fun h => by cases h⟩
    rw [lexPlain_state bts hp es] at h1
    have h1' : s.flush bts = us := by
      simpa [lexFinish, LexRes.tokens, LexSt.flush] using h1
    simp only [LexRes.tokens, Option.some.injEq] at h2
    subst h2
    simp [afinish, afin0, lexFinish, LexRes.tokens, h1']
  | throw => exact ⟨by intro us ts _ h; simp [LexRes.tokens] at h, fun _ => rfl⟩
  | diverges => exact ⟨by intro us ts _ h; simp [LexRes.tokens] at h, fun _ => rfl⟩
  | tooDeep => exact ⟨by intro us ts _ h; simp [LexRes.tokens] at h, fun _ => rfl⟩

/-- C127: an outcome reached with some admitted depth of inclusions is the outcome with every
greater one. -/
theorem C127_depth (bts : List Str) (fs : Str → Option (List Char)) (n m : Nat) (hnm : n ≤ m)
    (text : List Char) (h : lexDepth bts fs n text ≠ .tooDeep) :
    lexDepth bts fs m text = lexDepth bts fs n text :=
  lexDepth_mono_le bts fs hnm text h

/-- C127: unless the text stands for one that ends with `#`, reading a file with nested inclusions
comes to an end (compare `C02_self_include_unbounded`). -/
theorem C127_terminates (bts : List Str) (files : Str → Option (List Part)) (src : List Part)
    (e : List Char) (h : Expands bts files src e) (he : e.getLast? ≠ some '#') :
    ∃ N ts, ∀ n, N ≤ n →
      (lexDepth bts (fileTexts files) n (renderParts src)).tokens = some ts := by
  obtain ⟨N, hN⟩ := C127_in_place_partial bts files src e h
  have hp := expands_plain bts h
  obtain ⟨ts, pw, ins, ini, hts⟩ :=
    C02_plain_terminates_partial bts e (fun c hc => (hp c hc).2.1) he
  refine ⟨N, ts, fun n hn => ?_⟩
  have := hN n hn
  rw [lexPlain, hts] at this
  revert this
  cases lexDepth bts (fileTexts files) n (renderParts src) <;> simp [LexRes.erase, LexRes.tokens]
  intro h _ _
  exact h

/-! #### An example with two levels -/

/-- Two files, the second of which is included by the first. -/
def demoFiles (f : Str) : Option (List Part) :=
  if f = "my file".toList then some [.text "b = 2; ".toList, .file "sub".toList]
  else if f = "sub".toList then some [.text "c = 3; # end\n".toList]
  else none

/-- The main file and the text it stands for. -/
theorem demo_expands : Expands [] demoFiles
    [.text "a = 1; ".toList, .file "my file".toList, .text "d = 4;".toList]
    "a = 1;  b = 2;  c = 3; # end\n  d = 4;".toList := by
  have sub : Expands [] demoFiles [.text "c = 3; # end\n".toList] "c = 3; # end\n".toList :=
    Expands.text .nil (by unfold Plain; decide)
  have mine : Expands [] demoFiles [.text "b = 2; ".toList, .file "sub".toList]
      "b = 2;  c = 3; # end\n ".toList :=
    Expands.file (l := [.text "b = 2; ".toList]) (e := "b = 2; ".toList)
      (b := "c = 3; # end\n".toList)
      (Expands.text .nil (by unfold Plain; decide)) (by decide)
      (by unfold Settled lastKind lexPlain; rw [lexDepth_eq_exec]; decide +kernel)
      (by simp [IncNameOk]) (by decide) sub (by decide)
  exact Expands.text (l := [.text "a = 1; ".toList, .file "my file".toList])
    (e := "a = 1;  b = 2;  c = 3; # end\n  ".toList)
    (Expands.file (l := [.text "a = 1; ".toList]) (e := "a = 1; ".toList)
      (b := "b = 2;  c = 3; # end\n ".toList)
      (Expands.text .nil (by unfold Plain; decide)) (by decide)
      (by unfold Settled lastKind lexPlain; rw [lexDepth_eq_exec]; decide +kernel)
      (by simp [IncNameOk]) (by decide) mine (by decide))
    (by unfold Plain; decide)

example : renderParts [.text "a = 1; ".toList, .file "my file".toList, .text "d = 4;".toList]
    = "a = 1; <my file>d = 4;".toList := by decide

example : "a = 1;  b = 2;  c = 3; # end\n  d = 4;".toList.getLast? ≠ some '#' := by decide

example : demoFiles "other".toList = none ∧ IncNameOk "other".toList := by
  refine ⟨by decide, ?_⟩
  simp [IncNameOk]

/-! #### Where it fails -/

/-- C127 as stated is refuted: a file cannot stand for a value.  With the file `one` reading `1`,
the text `a = <one>;` has a name where `a = 1 ;` has a value, and is reported as an error. -/
theorem C127_refuted_value :
    (lexDepth [] (fun f => if f = "one".toList then some "1".toList else none) 2
        "a = <one>;".toList).tokens =
      some [⟨.name, "a".toList⟩, ⟨.equals, "=".toList⟩, ⟨.name, "1".toList⟩,
        ⟨.endStatement, ";".toList⟩, eofTok] ∧
    (lexPlain [] "a = 1 ;".toList).tokens =
      some [⟨.name, "a".toList⟩, ⟨.equals, "=".toList⟩, ⟨.value, "1".toList⟩,
        ⟨.endStatement, ";".toList⟩, eofTok] := by
  unfold lexPlain
  rw [lexDepth_eq_exec, lexDepth_eq_exec]
  decide +kernel

/-- C127 as stated is refuted: of an included file the last line of which is a comment without a
newline, the last character becomes a word of the text. -/
theorem C127_refuted_comment :
    (lexDepth [] (fun f => if f = "f".toList then some "b = 2; # end".toList else none) 2
        "<f>\na = 1;".toList).tokens =
      some [⟨.name, "b".toList⟩, ⟨.equals, "=".toList⟩, ⟨.value, "2".toList⟩,
        ⟨.endStatement, ";".toList⟩, ⟨.name, "d".toList⟩, ⟨.name, "a".toList⟩,
        ⟨.equals, "=".toList⟩, ⟨.value, "1".toList⟩, ⟨.endStatement, ";".toList⟩, eofTok] := by
  rw [lexDepth_eq_exec]
  decide +kernel

/-- C127 as stated is refuted: the state of the lexer is not restored.  After a file that ends
within a string, the including text goes on within a string: its `;` and newline are text. -/
theorem C127_refuted_string :
    (lexDepth [] (fun f => if f = "f".toList then some "b = \"x".toList else none) 2
        "<f>;\na = 1;".toList).tokens =
      some [⟨.name, "b".toList⟩, ⟨.equals, "=".toList⟩, ⟨.value, "x".toList⟩,
        ⟨.value, ";\na = 1;".toList⟩, eofTok] := by
  rw [lexDepth_eq_exec]
  decide +kernel

/-- C127 as stated is refuted: there are files that cannot be included.  In the name `a#1` the
second half is a comment, and of two blanks in a name one is dropped. -/
theorem C127_refuted_name :
    (lexDepth [] (fun f => if f = "a#1".toList then some "b = 2;".toList else none) 2
        "<a#1>\n".toList).tokens = some [⟨.name, "a ".toList⟩, eofTok] ∧
    lexDepth [] (fun f => if f = "a  1".toList then some "b = 2;".toList else none) 2
        "<a  1>".toList = .throw := by
  rw [lexDepth_eq_exec]
  decide +kernel

end Softlib
