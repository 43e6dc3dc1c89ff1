/-
Helper lemmas: kinds of all tokens of a text without inclusions (C05), and independence
of the inclusion depth.
-/
import Verif.Config.LexRender

namespace Softlib.Config

section
variable (bts : List Str) (inc : Str → LexRes)

theorem tokensFrom_concat (prev : Option TokTy) (l : List Str) (w : Str) :
    tokensFrom bts prev (l ++ [w]) =
      tokensFrom bts prev l ++
        [⟨kindOf bts (match (tokensFrom bts prev l).getLast? with
            | some t => some t.ty
            | none => prev) w, w⟩] := by
  induction l generalizing prev with
  | nil => simp [tokensFrom]
  | cons s l ih =>
    simp only [List.cons_append, tokensFrom, ih, List.getLast?_cons]
    cases (tokensFrom bts (some (kindOf bts prev s)) l).getLast? <;> simp

theorem tokensFrom_val (prev : Option TokTy) (l : List Str) :
    (tokensFrom bts prev l).map Tok.val = l := by
  induction l generalizing prev with
  | nil => rfl
  | cons s l ih => simp [tokensFrom, ih]

/-- Every token has the kind its context dictates. -/
def Kinded (ts : List Tok) : Prop := ts = tokensFrom bts none (ts.map Tok.val)

theorem Kinded.push {ts : List Tok} (h : Kinded bts ts) (b : Str) :
    Kinded bts (pushbuffer bts b ts) := by
  by_cases hb : b = []
  · subst hb; simpa using h
  · unfold Kinded at *
    rw [pushbuffer_cons bts hb]
    rw [List.map_append, List.map_singleton, tokensFrom_concat]
    rw [← h]
    cases ts.getLast? <;> rfl

def KindedRes : LexRes → Prop
  | .ok ts _ _ _ => Kinded bts ts.dropLast
  | _ => True

def KindedASt : ASt → Prop
  | .run _ s => Kinded bts s.tkns
  | .done r => KindedRes bts r

theorem lexFinish_kinded {s : LexSt} (h : Kinded bts s.tkns) : KindedRes bts (lexFinish bts s) := by
  simp only [lexFinish, KindedRes, List.dropLast_concat]
  exact h.push bts _

theorem feed_kinded {s : LexSt} (h : Kinded bts s.tkns) {c : Char} (hc : c ≠ '>') :
    KindedASt bts (feed bts inc s c) := by
  unfold feed lexStep
  simp only [hc, if_false]
  by_cases h1 : s.instring = true ∧ c ≠ '"'
  · simpa [h1, KindedASt] using h
  · by_cases h2 : s.ininclude = true ∧ c ≠ '>'
    · simpa [h1, h2, hc, KindedASt] using h
    · simp only [h1, h2, if_false, hc, ne_eq, not_false_eq_true, and_true] at *
      by_cases h3 : c = '"'
      · simpa [h2, h3, KindedASt] using h.push bts _
      · by_cases h4 : c = '<'
        · simpa [h2, h4, KindedASt] using h.push bts _
        · by_cases h5 : c = '=' ∨ c = '(' ∨ c = ')' ∨ c = '{' ∨ c = '}' ∨ c = ';'
          · simpa [h2, h3, h4, h5, KindedASt] using (h.push bts _).push bts _
          · by_cases h6 : c = ',' ∨ c = ' '
            · simpa [h2, h3, h4, h5, h6, KindedASt] using h.push bts _
            · simpa [h2, h3, h4, h5, h6, KindedASt] using h

theorem acode_kinded {s : LexSt} (h : Kinded bts s.tkns) {c : Char} (hc : c ≠ '>') :
    KindedASt bts (acode bts inc s c) := by
  unfold acode
  repeat' split
  all_goals first
    | exact feed_kinded bts inc (by simpa using h) hc
    | exact feed_kinded bts inc (by simpa using h) (by decide)
    | exact lexFinish_kinded bts (by simpa using h)
    | exact h

theorem astep_kinded {a : ASt} (h : KindedASt bts a) {c : Char} (hc : c ≠ '>') :
    KindedASt bts (astep bts inc a c) := by
  match a with
  | .done r => exact h
  | .run none s => exact acode_kinded bts inc h hc
  | .run (some l) s =>
    simp only [astep]
    repeat' split
    · exact lexFinish_kinded bts h
    · exact acode_kinded bts inc h hc
    · exact h

theorem fold_kinded {text : List Char} {a : ASt} (h : KindedASt bts a)
    (ht : ∀ c ∈ text, c ≠ '>') : KindedASt bts (text.foldl (astep bts inc) a) := by
  induction text generalizing a with
  | nil => exact h
  | cons c text ih =>
    exact ih (astep_kinded bts inc h (ht c (by simp))) (fun x hx => ht x (by simp [hx]))

theorem afin0_kinded {a : ASt} (h : KindedASt bts a) : KindedRes bts (afin0 bts a) := by
  match a with
  | .done r => exact h
  | .run _ s => exact lexFinish_kinded bts h

theorem lexDepth_kinded (fs : Str → Option (List Char)) (n : Nat) {text : List Char}
    (ht : ∀ c ∈ text, c ≠ '>') : KindedRes bts (lexDepth bts fs (n + 1) text) := by
  rw [lexDepth_eq_fold]
  simp only
  have hf := fold_kinded bts (includeFile fs (lexDepth bts fs n)) (text := text)
      (a := .run none LexSt.init) (by simp [KindedASt, LexSt.init, Kinded, tokensFrom]) ht
  generalize ha : List.foldl _ _ text = a at hf
  match a, hf, ha with
  | .done r, hf, _ => exact hf
  | .run none s, hf, _ => exact lexFinish_kinded bts hf
  | .run (some l) s, hf, ha =>
    have hl := fold_comment_last _ _ ha
    rw [afinish_comment]
    split
    · trivial
    · exact afin0_kinded bts (acode_kinded bts _ hf (ht l (List.mem_of_getLast? hl)))

/-! ### Without `>` the include function is irrelevant -/

theorem feed_inc (inc' : Str → LexRes) (s : LexSt) {c : Char} (hc : c ≠ '>') :
    feed bts inc s c = feed bts inc' s c := by
  unfold feed lexStep
  simp only [hc, if_false]

theorem acode_inc (inc' : Str → LexRes) (s : LexSt) {c : Char} (hc : c ≠ '>') :
    acode bts inc s c = acode bts inc' s c := by
  unfold acode
  rw [feed_inc bts inc inc' s hc, feed_inc bts inc inc' { s with prevws := false } hc,
    feed_inc bts inc inc' { s with prevws := true } (c := ' ') (by decide)]

theorem astep_inc (inc' : Str → LexRes) (a : ASt) {c : Char} (hc : c ≠ '>') :
    astep bts inc a c = astep bts inc' a c := by
  match a with
  | .done r => rfl
  | .run none s => exact acode_inc bts inc inc' s hc
  | .run (some l) s => simp only [astep]; rw [acode_inc bts inc inc' s hc]

theorem fold_inc (inc' : Str → LexRes) {text : List Char} (a : ASt) (ht : ∀ c ∈ text, c ≠ '>') :
    text.foldl (astep bts inc) a = text.foldl (astep bts inc') a := by
  induction text generalizing a with
  | nil => rfl
  | cons c text ih =>
    rw [List.foldl_cons, List.foldl_cons, astep_inc bts inc inc' a (ht c (by simp))]
    exact ih _ (fun x hx => ht x (by simp [hx]))

theorem lexDepth_inc (fs fs' : Str → Option (List Char)) (n m : Nat) {text : List Char}
    (ht : ∀ c ∈ text, c ≠ '>') :
    lexDepth bts fs (n + 1) text = lexDepth bts fs' (m + 1) text := by
  rw [lexDepth_eq_fold, lexDepth_eq_fold]
  simp only
  rw [fold_inc bts _ (includeFile fs' (lexDepth bts fs' m)) _ ht]
  generalize ha : List.foldl _ _ text = a
  match a, ha with
  | .done r, _ => rfl
  | .run none s, _ => rfl
  | .run (some l) s, ha =>
    have hl := fold_comment_last _ _ ha
    rw [afinish_comment, afinish_comment]
    rw [acode_inc bts _ (includeFile fs' (lexDepth bts fs' m)) _ (ht l (List.mem_of_getLast? hl))]

/-- Outcomes other than success and divergence come from inclusions. -/
def OkOrDiv : LexRes → Prop
  | .ok .. => True
  | .diverges => True
  | _ => False

def AOk : ASt → Prop
  | .done (.ok ..) => True
  | .done _ => False
  | .run .. => True

theorem feed_ok (s : LexSt) {c : Char} (hc : c ≠ '>') : ∃ s', feed bts inc s c = .run none s' := by
  unfold feed lexStep
  simp only [hc, if_false]
  by_cases h1 : s.instring = true ∧ c ≠ '"'
  · simp [h1]
  · by_cases h2 : s.ininclude = true
    · simp [h1, h2, hc]
    · by_cases h3 : c = '"'
      · simp [h1, h2, h3]
      · by_cases h4 : c = '<'
        · simp_all
        · by_cases h5 : c = '=' ∨ c = '(' ∨ c = ')' ∨ c = '{' ∨ c = '}' ∨ c = ';'
          · simp_all
          · by_cases h6 : c = ',' ∨ c = ' '
            · simp_all
            · simp_all

theorem acode_ok (s : LexSt) {c : Char} (hc : c ≠ '>') : AOk (acode bts inc s c) := by
  unfold acode
  repeat' split
  all_goals first
    | trivial
    | (obtain ⟨s', h⟩ := feed_ok bts inc s hc; rw [h]; trivial)
    | (obtain ⟨s', h⟩ := feed_ok bts inc { s with prevws := false } hc; rw [h]; trivial)
    | (obtain ⟨s', h⟩ := feed_ok bts inc { s with prevws := true } (c := ' ') (by decide)
       rw [h]; trivial)

theorem fold_ok {text : List Char} {a : ASt} (h : AOk a) (ht : ∀ c ∈ text, c ≠ '>') :
    AOk (text.foldl (astep bts inc) a) := by
  induction text generalizing a with
  | nil => exact h
  | cons c text ih =>
    refine ih ?_ (fun x hx => ht x (by simp [hx]))
    have hc := ht c (by simp)
    match a, h with
    | .done (.ok ..), _ => trivial
    | .run none s, _ => exact acode_ok bts inc s hc
    | .run (some l) s, _ =>
      simp only [astep]
      repeat' split
      · trivial
      · exact acode_ok bts inc s hc
      · trivial

theorem lexDepth_okOrDiv (fs : Str → Option (List Char)) (n : Nat) {text : List Char}
    (ht : ∀ c ∈ text, c ≠ '>') : OkOrDiv (lexDepth bts fs (n + 1) text) := by
  rw [lexDepth_eq_fold]
  simp only
  have hf := fold_ok bts (includeFile fs (lexDepth bts fs n)) (text := text)
      (a := .run none LexSt.init) trivial ht
  generalize ha : List.foldl _ _ text = a at hf
  match a, hf, ha with
  | .done (.ok ..), _, _ => trivial
  | .run none s, _, _ => trivial
  | .run (some l) s, _, ha =>
    have hl := fold_comment_last _ _ ha
    rw [afinish_comment]
    split
    · trivial
    · have := acode_ok bts (includeFile fs (lexDepth bts fs n)) s (ht l (List.mem_of_getLast? hl))
      revert this
      generalize acode bts _ s l = a'
      intro this
      match a', this with
      | .done (.ok ..), _ => trivial
      | .run _ _, _ => trivial

/-- Executable form of `lexDepth` by the fold (used to evaluate examples). -/
def lexExec (bts : List Str) (fs : Str → Option (List Char)) : Nat → List Char → LexRes
  | 0, _ => .tooDeep
  | n + 1, text =>
    afinish bts (includeFile fs (lexExec bts fs n))
      (text.foldl (astep bts (includeFile fs (lexExec bts fs n))) (.run none LexSt.init))

theorem lexDepth_eq_exec (fs : Str → Option (List Char)) (n : Nat) :
    lexDepth bts fs n = lexExec bts fs n := by
  induction n with
  | zero => rfl
  | succ n ih => funext text; rw [lexDepth_eq_fold, ih]; rfl

end
end Softlib.Config
