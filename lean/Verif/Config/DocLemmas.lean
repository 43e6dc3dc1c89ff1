/-
Lemmas connecting documents (items), their tokens, and the trees the interpreter builds.
-/
import Verif.Config.InterpLemmas
import Verif.Config.TreeLemmas

namespace Softlib.Config

open Block

def secToks : Option Str → List Tok
  | none => []
  | some s => [⟨.lpar, ['(']⟩, ⟨.name, s⟩, ⟨.rpar, [')']⟩]

mutual
/-- Tokens of a document. -/
def Item.toks : Item → List Tok
  | .set n v vs => ⟨.name, n⟩ :: ⟨.equals, ['=']⟩ :: ⟨.value, v⟩ ::
      (vs.map (fun x => ⟨.value, x⟩) ++ [⟨.endStatement, [';']⟩])
  | .blk t n sec body => ⟨.blocktype, t⟩ :: ⟨.blockname, n⟩ ::
      (secToks sec ++ (⟨.blockStart, ['{']⟩ :: (itemsToks body ++ [⟨.blockEnd, ['}']⟩])))
def itemsToks : List Item → List Tok
  | [] => []
  | i :: is => i.toks ++ itemsToks is
end

mutual
/-- The effect of a document on a block. -/
def applyItem (bts : List Str) : Item → Block → Block
  | .set n v vs, b => b.addSetting ⟨n, v :: vs, false⟩
  | .blk t n sec body, b =>
    (b.addSubBlock (typeId bts t) n (sec.getD [])).1.modifySub
      (b.addSubBlock (typeId bts t) n (sec.getD [])).2 (applyItems bts body)
def applyItems (bts : List Str) : List Item → Block → Block
  | [], b => b
  | i :: is, b => applyItems bts is (applyItem bts i b)
end

/-! ### Kinds of the words of a document -/

/-- A position where a statement can start. -/
def Neutral (p : Option TokTy) : Prop := p ≠ some .equals ∧ p ≠ some .value ∧ p ≠ some .blocktype

theorem kindOf_word {bts : List Str} {prev : Option TokTy} {s : Str} (hs : NotPunct s) :
    kindOf bts prev s =
      match prev with
      | some .equals => .value
      | some .value => .value
      | some .blocktype => .blockname
      | _ => if s ∈ bts then .blocktype else .name := by
  unfold kindOf
  split
  · exact absurd rfl (hs '=' (by simp [IsPunct]))
  · exact absurd rfl (hs '(' (by simp [IsPunct]))
  · exact absurd rfl (hs ')' (by simp [IsPunct]))
  · exact absurd rfl (hs '{' (by simp [IsPunct]))
  · exact absurd rfl (hs '}' (by simp [IsPunct]))
  · exact absurd rfl (hs ';' (by simp [IsPunct]))
  · rfl

theorem kindOf_neutral {bts : List Str} {prev : Option TokTy} {s : Str} (hs : NotPunct s)
    (hp : Neutral prev) : kindOf bts prev s = if s ∈ bts then .blocktype else .name := by
  rw [kindOf_word hs]
  obtain ⟨h1, h2, h3⟩ := hp
  split <;> simp_all

theorem tokensFrom_values {bts : List Str} {vs rest : List Str} (h : ∀ x ∈ vs, NotPunct x)
    (c : Char) (hc : IsPunct c) :
    tokensFrom bts (some .value) (vs ++ [c] :: rest) =
      vs.map (fun x => ⟨.value, x⟩) ++ tokensFrom bts (some .value) ([c] :: rest) := by
  induction vs with
  | nil => rfl
  | cons v vs ih =>
    have : kindOf bts (some .value) v = .value := by rw [kindOf_word (h v (by simp))]
    simp only [List.cons_append, tokensFrom, this, List.map_cons]
    rw [ih (fun x hx => h x (by simp [hx]))]
    simp only [tokensFrom]

mutual
theorem Item.toks_eq {bts : List Str} (i : Item) (h : i.Valid bts) (prev : Option TokTy)
    (hp : Neutral prev) (rest : List Str) :
    ∃ q, Neutral q ∧ tokensFrom bts prev (i.words ++ rest) = i.toks ++ tokensFrom bts q rest := by
  cases i with
  | set n v vs =>
    simp only [Item.Valid] at h
    obtain ⟨h1, h2, h3, h4⟩ := h
    refine ⟨some .endStatement, by simp [Neutral], ?_⟩
    simp only [Item.words, List.cons_append, List.append_assoc, List.nil_append, tokensFrom]
    rw [kindOf_neutral h1 hp]
    simp only [h2, if_false]
    have e1 : kindOf bts (some .name) ['='] = .equals := rfl
    have e2 : kindOf bts (some .equals) v = .value := by rw [kindOf_word h3]
    rw [e1, e2, tokensFrom_values h4 ';' (by simp [IsPunct])]
    simp [Item.toks, tokensFrom, kindOf]
  | blk t n sec body =>
    simp only [Item.Valid] at h
    obtain ⟨h1, h2, h3, h4, h5⟩ := h
    refine ⟨some .blockEnd, by simp [Neutral], ?_⟩
    simp only [Item.words, List.cons_append, List.append_assoc, List.nil_append, tokensFrom]
    rw [kindOf_neutral h1 hp]
    simp only [h2, if_true]
    have e2 : kindOf bts (some .blocktype) n = .blockname := by rw [kindOf_word h3]
    rw [e2]
    have hb : ∀ q, Neutral q → tokensFrom bts q (['{'] :: (itemsWords body ++ ['}'] :: rest)) =
        ⟨.blockStart, ['{']⟩ :: (itemsToks body ++ ⟨.blockEnd, ['}']⟩ ::
          tokensFrom bts (some .blockEnd) rest) := by
      intro q _
      obtain ⟨q', _, e⟩ := itemsToks_eq body h5 (some .blockStart) (by simp [Neutral]) (['}'] :: rest)
      have e1 : kindOf bts q ['{'] = .blockStart := rfl
      have e2 : kindOf bts q' ['}'] = .blockEnd := rfl
      rw [tokensFrom, e1, e, tokensFrom, e2]
    cases sec with
    | none =>
      simp only [secWords, List.nil_append]
      rw [hb _ (by simp [Neutral])]
      simp [Item.toks, secToks]
    | some s =>
      obtain ⟨h6, h7⟩ := h4 s rfl
      simp only [secWords, List.cons_append, List.nil_append, tokensFrom]
      have e3 : kindOf bts (some .blockname) ['('] = .lpar := rfl
      have e4 : kindOf bts (some .lpar) s = .name := by
        rw [kindOf_neutral h6 (by simp [Neutral])]; simp [h7]
      have e5 : kindOf bts (some .name) [')'] = .rpar := rfl
      rw [e3, e4, e5]
      have := hb (some .rpar) (by simp [Neutral])
      simp only [tokensFrom] at this
      rw [this]
      simp [Item.toks, secToks]

theorem itemsToks_eq {bts : List Str} (is : List Item) (h : itemsValid bts is)
    (prev : Option TokTy) (hp : Neutral prev) (rest : List Str) :
    ∃ q, Neutral q ∧ tokensFrom bts prev (itemsWords is ++ rest) =
      itemsToks is ++ tokensFrom bts q rest := by
  cases is with
  | nil => exact ⟨prev, hp, by simp [itemsWords, itemsToks]⟩
  | cons i is =>
    simp only [itemsValid] at h
    obtain ⟨q, hq, e⟩ := Item.toks_eq i h.1 prev hp (itemsWords is ++ rest)
    obtain ⟨q', hq', e'⟩ := itemsToks_eq is h.2 q hq rest
    refine ⟨q', hq', ?_⟩
    simp only [itemsWords, itemsToks, List.append_assoc]
    rw [e, e']
end

/-! ### Running a document -/

theorem stringToBlockType_mem {reg : Registry} {t : Str} (h : t ∈ reg) :
    reg.stringToBlockType t = typeId reg t := by
  unfold Registry.stringToBlockType typeId
  induction reg with
  | nil => simp at h
  | cons a r ih =>
    rw [List.findIdx?_cons]
    by_cases ha : a = t
    · subst ha; simp
    · have ht : t ∈ r := by
        rcases List.mem_cons.1 h with h | h
        · exact absurd h.symm ha
        · exact h
      have := ih ht
      have hb : (a == t) = false := by simp [ha]
      simp only [hb, Bool.false_eq_true, if_false]
      rw [List.idxOf_cons]
      simp only [hb, cond_false]
      cases hf : List.findIdx? (fun x => x == t) r with
      | none =>
        rw [List.findIdx?_eq_none_iff] at hf
        have := hf t ht
        simp at this
      | some i =>
        simp only [hf] at this
        simp [this]

theorem cont_of_ok {reg : Registry} {st st' : ISt} {t l : Tok} {s rest : List Tok}
    (h : stmt reg st (t :: s) = .ok st' (l :: rest)) (ht : t.ty ≠ .eof) (hl : l.ty ≠ .eof) :
    cont reg st (t :: s) = cont reg st' rest := by
  rw [← interpLoop_of_ok h hl]
  simp [cont, ht]

theorem subIdx_lt {b : Block} {t : Nat} {n : Str} {i : Nat} (h : b.subIdx? t n = some i) :
    ∃ c, b.subs[i]? = some c ∧ c.key = (t, n) := by
  unfold subIdx? at h
  rw [List.findIdx?_eq_some_iff_getElem] at h
  obtain ⟨hi, h1, _⟩ := h
  exact ⟨b.subs[i], by simp [hi], hasTypeAndName_iff.1 h1⟩

/-- The sub-block selected by `AddSubBlock`: the existing one or a fresh one. -/
theorem addSubBlock_at (b : Block) (t : Nat) (n s : Str) :
    ∃ c, (b.addSubBlock t n s).1.subs[(b.addSubBlock t n s).2]? = some c := by
  unfold addSubBlock
  split
  · rename_i i h
    obtain ⟨c, hc, _⟩ := subIdx_lt h
    exact ⟨c, hc⟩
  · exact ⟨fresh t n s, by simp [subs]⟩

mutual
theorem cont_item {reg : Registry} (i : Item) (h : i.Valid reg) (st : ISt) (b : Block)
    (hb : at? st.path st.root = some b) (rest : List Tok) :
    cont reg st (i.toks ++ rest) =
      cont reg ⟨st.root.modifyAt st.path (applyItem reg i), st.path, st.err⟩ rest := by
  cases i with
  | set n v vs =>
    simp only [Item.toks, List.cons_append, List.append_assoc, List.nil_append]
    rw [cont_of_ok (stmt_setting reg st (n := ⟨.name, n⟩) rfl rfl rfl (by simp) rfl)
      (by simp) (by simp)]
    congr 2
    congr 1
    funext b
    simp [applyItem, Function.comp_def]
  | blk t n sec body =>
    simp only [Item.Valid] at h
    obtain ⟨-, h2, -, -, h5⟩ := h
    have hopen : cont reg st ((Item.blk t n sec body).toks ++ rest) =
        cont reg (enterBlock st (typeId reg t) n (sec.getD []))
          (itemsToks body ++ (⟨.blockEnd, ['}']⟩ :: rest)) := by
      cases sec with
      | none =>
        simp only [Item.toks, secToks, List.cons_append, List.append_assoc, List.nil_append]
        rw [cont_of_ok (stmt_open reg st rfl rfl rfl) (by simp) (by simp)]
        simp [stringToBlockType_mem h2]
      | some s =>
        simp only [Item.toks, secToks, List.cons_append, List.append_assoc, List.nil_append]
        rw [cont_of_ok (stmt_openSec reg st rfl rfl rfl rfl rfl rfl) (by simp) (by simp)]
        simp [stringToBlockType_mem h2]
    rw [hopen]
    obtain ⟨c, hc⟩ := addSubBlock_at b (typeId reg t) n (sec.getD [])
    have hroot : at? (enterBlock st (typeId reg t) n (sec.getD [])).path
        (enterBlock st (typeId reg t) n (sec.getD [])).root = some c := by
      simp only [enterBlock, hb]
      rw [at?_append, at?_modifyAt hb]
      simpa using hc
    rw [cont_items body h5 _ c hroot, cont_of_ok (stmt_close reg _ rfl _) (by simp) (by simp)]
    · congr 2
      · simp only [enterBlock, hb]
        rw [modifyAt_append, modifyAt_comp]
        apply modifyAt_congr hb
        simp [applyItem]
      · simp [enterBlock]
    · simp [enterBlock]

theorem cont_items {reg : Registry} (is : List Item) (h : itemsValid reg is) (st : ISt) (b : Block)
    (hb : at? st.path st.root = some b) (rest : List Tok) :
    cont reg st (itemsToks is ++ rest) =
      cont reg ⟨st.root.modifyAt st.path (applyItems reg is), st.path, st.err⟩ rest := by
  cases is with
  | nil =>
    simp only [itemsToks, List.nil_append]
    congr 1
    obtain ⟨root, path, err⟩ := st
    simp only at hb ⊢
    congr 1
    have : ∀ (p : List Nat) (r : Block), modifyAt p (applyItems reg []) r = r := by
      intro p
      induction p with
      | nil => intro r; simp [modifyAt, applyItems]
      | cons i p ih =>
        intro r
        simp only [modifyAt]
        have : modifyAt p (applyItems reg []) = id := by funext x; exact ih x
        rw [this, List.modify_id, eta]
    exact (this path root).symm
  | cons i is =>
    simp only [itemsValid] at h
    simp only [itemsToks, List.append_assoc]
    rw [cont_item i h.1 st b hb]
    rw [cont_items is h.2 _ (applyItem reg i b) (by exact at?_modifyAt hb)]
    simp only [modifyAt_comp]
    congr 2
end

/-! ### Lookups in the tree of a document -/

theorem valuesAt_nil (b : Block) (n : Str) :
    b.valuesAt [] n = (b.settings.find? (fun s => s.name == n)).map Setting.values := rfl

theorem valuesAt_cons (b : Block) (k : Nat × Str) (p : List (Nat × Str)) (n : Str) :
    b.valuesAt (k :: p) n =
      match b.subs.find? (fun c => c.ty == k.1 && c.name == k.2) with
      | none => none
      | some c => c.valuesAt p n := by
  obtain ⟨t, m⟩ := k
  simp only [valuesAt, find]
  cases b.subs.find? (fun c => c.ty == t && c.name == m) <;> rfl

theorem valuesAt_addSetting (b : Block) (s : Setting) (p : List (Nat × Str)) (n : Str) :
    (b.addSetting s).valuesAt p n =
      if p = [] ∧ s.name = n then some s.values else b.valuesAt p n := by
  cases p with
  | cons k p =>
    rw [valuesAt_cons, valuesAt_cons]
    have : (b.addSetting s).subs = b.subs := by unfold addSetting; split <;> rfl
    simp [this]
  | nil =>
    simp only [valuesAt_nil, true_and]
    unfold addSetting
    split
    · rename_i hs
      by_cases hn : s.name = n
      · subst hn
        simp only [if_true]
        change Option.map _ (List.find? _ (modifyFirst _ _ _)) = _
        rw [find?_modifyFirst_hit (by intro x; rfl)]
        simp only [hasSetting, List.any_eq_true] at hs
        cases hf : b.settings.find? (fun x => x.name == s.name) with
        | none =>
          rw [List.find?_eq_none] at hf
          obtain ⟨x, hx, h⟩ := hs
          exact absurd h (hf x hx)
        | some x => rfl
      · simp only [hn, if_false]
        change Option.map _ (List.find? _ (modifyFirst _ _ _)) = _
        rw [find?_modifyFirst_miss]
        intro x hx
        have : x.name = s.name := by simpa using hx
        simp [this, hn]
    · rename_i hs
      change Option.map _ (List.find? _ (b.settings ++ [s])) = _
      rw [List.find?_append]
      by_cases hn : s.name = n
      · subst hn
        have : b.settings.find? (fun x => x.name == s.name) = none := by
          rw [List.find?_eq_none]
          intro x hx h
          exact hs (by simp only [hasSetting, List.any_eq_true]; exact ⟨x, hx, h⟩)
        simp [this]
      · cases b.settings.find? (fun x => x.name == n) <;> simp [hn]

theorem addSubBlock_settings (b : Block) (t : Nat) (n s : Str) :
    (b.addSubBlock t n s).1.settings = b.settings := by
  unfold addSubBlock; split <;> rfl

/-- The sub-block reached by a key after opening a block and changing its contents. -/
theorem find_openBlock (b : Block) (t : Nat) (n s : Str) (F : Block → Block)
    (hF : ∀ c, (F c).key = c.key) (k : Nat × Str) :
    ((b.addSubBlock t n s).1.modifySub (b.addSubBlock t n s).2 F).subs.find?
        (fun c => c.ty == k.1 && c.name == k.2) =
      if k = (t, n) then
        some (F ((b.subs.find? (fun c => c.ty == k.1 && c.name == k.2)).getD (fresh t n s)))
      else b.subs.find? (fun c => c.ty == k.1 && c.name == k.2) := by
  have hk : ∀ c : Block, (c.ty == k.1 && c.name == k.2) = decide (c.key = k) := by
    intro c
    rw [Bool.eq_iff_iff]
    simp [key, Prod.ext_iff]
  simp only [hk]
  unfold addSubBlock
  cases hi : b.subIdx? t n with
  | some i =>
    simp only
    change List.find? _ (b.subs.modify i F) = _
    by_cases hkt : k = (t, n)
    · subst hkt
      simp only [if_true]
      have hi' : b.subs.findIdx? (fun c => decide (c.key = (t, n))) = some i := by
        rw [← hi, subIdx?]
        congr 1
        funext c
        rw [Bool.eq_iff_iff]
        simp [hasTypeAndName_iff]
      rw [find?_modify_hit hi' (by intro x; simp [hF])]
      cases hf : b.subs.find? (fun c => decide (c.key = (t, n))) with
      | none =>
        rw [List.find?_eq_none] at hf
        obtain ⟨c, hc, hck⟩ := subIdx_lt hi
        exact absurd (by simp [hck]) (hf c (List.mem_of_getElem? hc))
      | some c => simp
    · simp only [hkt, if_false]
      apply find?_modify_miss
      intro x hx
      obtain ⟨c, hc, hck⟩ := subIdx_lt hi
      rw [hc] at hx
      cases hx
      simp [hF, hck, Ne.symm hkt]
  | none =>
    simp only
    change List.find? _ ((b.subs ++ [fresh t n s]).modify b.subs.length F) = _
    have hm : (b.subs ++ [fresh t n s]).modify b.subs.length F = b.subs ++ [F (fresh t n s)] := by
      generalize b.subs = l
      induction l with
      | nil => rfl
      | cons a l ih => simp [ih]
    rw [hm, List.find?_append]
    have hFk : (F (fresh t n s)).key = (t, n) := hF _
    by_cases hkt : k = (t, n)
    · subst hkt
      have hnone : b.subs.find? (fun c => decide (c.key = (t, n))) = none := by
        rw [List.find?_eq_none]
        intro x hx h
        unfold subIdx? at hi
        rw [List.findIdx?_eq_none_iff] at hi
        have := hi x hx
        rw [hasTypeAndName_iff.2 (by simpa using h)] at this
        cases this
      simp [hnone, hFk]
    · cases b.subs.find? (fun c => decide (c.key = k)) with
      | some c => simp [hkt]
      | none => simp [hFk, Ne.symm hkt, hkt]

mutual
theorem key_applyItem (bts : List Str) (i : Item) (b : Block) : (applyItem bts i b).key = b.key := by
  cases i with
  | set n v vs => simp only [applyItem]; exact key_addSetting b _
  | blk t n sec body =>
    simp only [applyItem]
    rw [key_modifySub, key_addSubBlock]
theorem key_applyItems (bts : List Str) (is : List Item) (b : Block) :
    (applyItems bts is b).key = b.key := by
  cases is with
  | nil => simp [applyItems]
  | cons i is => simp only [applyItems]; rw [key_applyItems bts is, key_applyItem]
end

theorem typeId_inj {bts : List Str} {t t' : Str} (h : t ∈ bts) (e : typeId bts t = typeId bts t') :
    t = t' := by
  unfold typeId at e
  have hlt : bts.idxOf t < bts.length := List.idxOf_lt_length_of_mem h
  have hlt' : bts.idxOf t' < bts.length := e ▸ hlt
  have h1 : bts[bts.idxOf t] = t := List.getElem_idxOf hlt
  have h2 : bts[bts.idxOf t'] = t' := List.getElem_idxOf hlt'
  rw [← h1, ← h2]
  simp [e]

theorem valuesAt_fresh (t : Nat) (n s : Str) (p : List (Nat × Str)) (m : Str) :
    (fresh t n s).valuesAt p m = none := by
  cases p with
  | nil => rfl
  | cons k p => rw [valuesAt_cons]; rfl

mutual
theorem valuesAt_applyItem {bts : List Str} (i : Item) (h : i.Valid bts) (b : Block)
    (p : List (Str × Str)) (n : Str) :
    (applyItem bts i b).valuesAt (idPath bts p) n =
      match i.defines p n with
      | some v => some v
      | none => b.valuesAt (idPath bts p) n := by
  cases i with
  | set m v vs =>
    simp only [applyItem, Item.defines]
    rw [valuesAt_addSetting]
    have : idPath bts p = [] ↔ p = [] := by simp [idPath]
    by_cases hc : p = [] ∧ m = n
    · simp [hc.1, hc.2, idPath]
    · have : ¬ (idPath bts p = [] ∧ m = n) := by rw [this]; exact hc
      simp [hc, this]
  | blk t m sec body =>
    simp only [Item.Valid] at h
    obtain ⟨-, h2, -, -, h5⟩ := h
    simp only [applyItem]
    cases p with
    | nil =>
      simp only [Item.defines, idPath, List.map_nil, valuesAt_nil]
      change Option.map _ (List.find? _ (addSubBlock _ _ _ _).1.settings) = _
      rw [addSubBlock_settings]
    | cons k p =>
      simp only [idPath, List.map_cons]
      rw [valuesAt_cons, find_openBlock _ _ _ _ _ (fun c => key_applyItems bts body c)]
      have hk : (typeId bts k.1, k.2) = (typeId bts t, m) ↔ (t, m) = k := by
        constructor
        · intro e
          simp only [Prod.mk.injEq] at e
          have := typeId_inj h2 e.1.symm
          rw [this, ← e.2]
        · rintro rfl; rfl
      by_cases hkm : (t, m) = k
      · subst hkm
        simp only [if_true, Item.defines]
        rw [show List.map (fun k => (typeId bts k.1, k.2)) p = idPath bts p from rfl]
        rw [valuesAt_applyItems body h5]
        cases lastDef p n body with
        | some v => rfl
        | none =>
          simp only
          rw [valuesAt_cons]
          cases b.subs.find? (fun c => c.ty == typeId bts t && c.name == m) with
          | none => simp [valuesAt_fresh]
          | some c => simp
      · have hk' : ¬ (typeId bts k.1, k.2) = (typeId bts t, m) := fun e => hkm (hk.1 e)
        simp only [hk', if_false, Item.defines, hkm]
        rw [valuesAt_cons]

theorem valuesAt_applyItems {bts : List Str} (is : List Item) (h : itemsValid bts is) (b : Block)
    (p : List (Str × Str)) (n : Str) :
    (applyItems bts is b).valuesAt (idPath bts p) n =
      match lastDef p n is with
      | some v => some v
      | none => b.valuesAt (idPath bts p) n := by
  cases is with
  | nil => simp [applyItems, lastDef]
  | cons i is =>
    simp only [itemsValid] at h
    simp only [applyItems, lastDef]
    rw [valuesAt_applyItems is h.2, valuesAt_applyItem i h.1]
    cases lastDef p n is with
    | some v => rfl
    | none => rfl
end

/-! ### Trees of documents without repetitions -/

theorem find?_none_of_not_mem {l : List Block} {t : Nat} {n : Str}
    (h : (t, n) ∉ l.map key) : l.findIdx? (fun c => c.hasTypeAndName t n) = none := by
  rw [List.findIdx?_eq_none_iff]
  intro x hx
  cases hh : x.hasTypeAndName t n with
  | false => rfl
  | true =>
    exact absurd (List.mem_map.2 ⟨x, hx, hasTypeAndName_iff.1 hh⟩) h

theorem mem_blkKeys_of_valid {bts : List Str} {is : List Item} (h : itemsValid bts is)
    {k : Str × Str} (hk : k ∈ blkKeys is) : k.1 ∈ bts := by
  induction is with
  | nil => simp [blkKeys] at hk
  | cons i is ih =>
    simp only [itemsValid] at h
    cases i with
    | set n v vs => exact ih h.2 hk
    | blk t n sec body =>
      simp only [blkKeys, List.mem_cons] at hk
      rcases hk with rfl | hk
      · have := h.1; simp only [Item.Valid] at this; exact this.2.1
      · exact ih h.2 hk

mutual
theorem applyItem_tree {bts : List Str} (i : Item) (h : i.Valid bts) (hd : i.Distinct) :
    i.tree bts = match i with
      | .set _ _ _ => []
      | .blk t n sec body => [applyItems bts body (fresh (typeId bts t) n (sec.getD []))] := by
  cases i with
  | set n v vs => simp [Item.tree]
  | blk t n sec body =>
    simp only [Item.Valid] at h
    simp only [Item.Distinct] at hd
    simp only [Item.tree]
    rw [applyItems_tree body h.2.2.2.2 hd.2.2 hd.1 hd.2.1 (fresh (typeId bts t) n (sec.getD []))
      (by simp [fresh, settings]) (by simp [fresh, subs])]
    simp [fresh, settings, subs, ty, name, Block.sec]

theorem applyItems_tree {bts : List Str} (is : List Item) (h : itemsValid bts is)
    (hd : itemsDistinct is) (hn : (setNames is).Nodup) (hk : (blkKeys is).Nodup) (b : Block)
    (hb : ∀ n ∈ setNames is, n ∉ b.settings.map Setting.name)
    (hs : ∀ k ∈ blkKeys is, (typeId bts k.1, k.2) ∉ b.subs.map key) :
    applyItems bts is b =
      .mk b.ty b.name b.sec (b.settings ++ settingsOf is) (b.subs ++ itemsTree bts is) := by
  cases is with
  | nil => simp [applyItems, settingsOf, itemsTree, eta]
  | cons i is =>
    simp only [itemsValid] at h
    simp only [itemsDistinct] at hd
    simp only [applyItems]
    cases i with
    | set n v vs =>
      simp only [setNames, List.nodup_cons] at hn
      simp only [setNames, List.mem_cons] at hb
      have hnot : b.hasSetting n = false := by
        cases hh : b.hasSetting n with
        | false => rfl
        | true =>
          simp only [hasSetting, List.any_eq_true] at hh
          obtain ⟨x, hx, he⟩ := hh
          exact absurd (List.mem_map.2 ⟨x, hx, by simpa using he⟩) (hb n (Or.inl rfl))
      have e : applyItem bts (.set n v vs) b =
          .mk b.ty b.name b.sec (b.settings ++ [⟨n, v :: vs, false⟩]) b.subs := by
        simp [applyItem, addSetting, hnot]
      rw [e, applyItems_tree is h.2 hd.2 hn.2 hk]
      · simp [settings, subs, ty, name, Block.sec, settingsOf, itemsTree, Item.tree]
      · intro m hm
        simp only [settings, List.map_append, List.mem_append, List.map_cons, List.map_nil,
          List.mem_singleton, not_or]
        exact ⟨hb m (Or.inr hm), fun e => hn.1 (e ▸ hm)⟩
      · exact hs
    | blk t n sec body =>
      simp only [blkKeys, List.nodup_cons] at hk
      simp only [blkKeys, List.mem_cons] at hs
      have ht := (show (Item.blk t n sec body).Valid bts from h.1)
      simp only [Item.Valid] at ht
      have hnone : b.subIdx? (typeId bts t) n = none :=
        find?_none_of_not_mem (hs (t, n) (Or.inl rfl))
      have htree := applyItem_tree (.blk t n sec body) h.1 hd.1
      simp only at htree
      have e : applyItem bts (.blk t n sec body) b = .mk b.ty b.name b.sec b.settings
          (b.subs ++ (Item.blk t n sec body).tree bts) := by
        rw [htree]
        simp only [applyItem, addSubBlock, hnone, modifySub]
        congr 1
        change (b.subs ++ [_]).modify b.subs.length _ = _
        generalize b.subs = l
        induction l with
        | nil => rfl
        | cons a l ih => simp [ih]
      rw [e, applyItems_tree is h.2 hd.2 hn hk.2]
      · simp [settings, subs, ty, name, Block.sec, settingsOf, itemsTree]
      · exact hb
      · intro k hkm
        rw [htree]
        simp only [subs, List.map_append, List.mem_append, List.map_cons, List.map_nil,
          List.mem_singleton, not_or]
        refine ⟨hs k (Or.inr hkm), ?_⟩
        rw [key_applyItems]
        intro e
        simp only [key, fresh, ty, name, Prod.mk.injEq] at e
        apply hk.1
        have := typeId_inj (mem_blkKeys_of_valid h.2 hkm) e.1
        rw [← this, ← e.2]
        exact hkm
end

end Softlib.Config
