/-
Lemmas about block trees: navigation, lookups, uniqueness.
-/
import Verif.Config.InterpModel
import Verif.Config.InterpSpec

namespace Softlib.Config

namespace Block

/-- Modify one sub-block. -/
def modifySub (i : Nat) (f : Block → Block) (b : Block) : Block :=
  mk b.ty b.name b.sec b.settings (b.subs.modify i f)

theorem eta (b : Block) : mk b.ty b.name b.sec b.settings b.subs = b := by cases b; rfl

theorem modifyAt_append (p : List Nat) (i : Nat) (f : Block → Block) (b : Block) :
    modifyAt (p ++ [i]) f b = modifyAt p (modifySub i f) b := by
  induction p generalizing b with
  | nil => rfl
  | cons j p ih =>
    simp only [List.cons_append, modifyAt]
    congr 2
    funext c
    exact ih c

theorem modify_comp {α : Type} (l : List α) (i : Nat) (f g : α → α) :
    (l.modify i g).modify i f = l.modify i (f ∘ g) := by
  induction l generalizing i with
  | nil => cases i <;> simp
  | cons a l ih => cases i <;> simp [ih]

theorem modifyAt_comp (p : List Nat) (f g : Block → Block) (b : Block) :
    modifyAt p f (modifyAt p g b) = modifyAt p (f ∘ g) b := by
  induction p generalizing b with
  | nil => rfl
  | cons i p ih =>
    simp only [modifyAt, ty, name, sec, settings, subs, modify_comp]
    congr 2
    funext c
    exact ih c

theorem modify_congr {α : Type} {l : List α} {i : Nat} {f g : α → α}
    (h : ∀ c, l[i]? = some c → f c = g c) : l.modify i f = l.modify i g := by
  induction l generalizing i with
  | nil => cases i <;> simp
  | cons a l ih =>
    cases i with
    | zero => simp [h a (by simp)]
    | succ i => simp [ih (fun c hc => h c (by simpa using hc))]

theorem modifyAt_congr {p : List Nat} {f g : Block → Block} {b c : Block} (h : at? p b = some c)
    (hfg : f c = g c) : modifyAt p f b = modifyAt p g b := by
  induction p generalizing b with
  | nil => simp only [at?, Option.some.injEq] at h; subst h; exact hfg
  | cons i p ih =>
    simp only [modifyAt]
    congr 1
    apply modify_congr
    intro d hd
    simp only [at?, hd, Option.bind_some] at h
    exact ih h

theorem at?_modifyAt {p : List Nat} {f : Block → Block} {b c : Block} (h : at? p b = some c) :
    at? p (modifyAt p f b) = some (f c) := by
  induction p generalizing b with
  | nil => simp only [at?, Option.some.injEq] at h; subst h; rfl
  | cons i p ih =>
    cases hd : b.subs[i]? with
    | none => simp [at?, hd] at h
    | some d =>
      simp only [at?, hd, Option.bind_some] at h
      simp only [at?, modifyAt]
      change ((b.subs.modify i (modifyAt p f))[i]?).bind (at? p) = _
      simp [hd, ih h]

theorem at?_append (p : List Nat) (i : Nat) (b : Block) :
    at? (p ++ [i]) b = (at? p b).bind (fun c => c.subs[i]?) := by
  induction p generalizing b with
  | nil => simp [at?]
  | cons j p ih =>
    cases hd : b.subs[j]? with
    | none => simp [at?, hd]
    | some d => simp [at?, hd, ih]

/-! ### Keys are preserved -/

def key (b : Block) : Nat × Str := (b.ty, b.name)

theorem key_addSetting (b : Block) (s : Setting) : (b.addSetting s).key = b.key := by
  unfold addSetting; split <;> rfl

theorem key_addSubBlock (b : Block) (t : Nat) (n s : Str) : (b.addSubBlock t n s).1.key = b.key := by
  unfold addSubBlock; split <;> rfl

theorem key_modifySub (i : Nat) (f : Block → Block) (b : Block) : (modifySub i f b).key = b.key := rfl

theorem hasTypeAndName_iff {b : Block} {t : Nat} {n : Str} :
    b.hasTypeAndName t n = true ↔ b.key = (t, n) := by
  simp [hasTypeAndName, key]

/-! ### The first match -/

theorem find?_modify_hit {α : Type} {l : List α} {i : Nat} {f : α → α} {P : α → Bool}
    (hi : l.findIdx? P = some i) (hP : ∀ x, P (f x) = P x) :
    (l.modify i f).find? P = (l.find? P).map f := by
  induction l generalizing i with
  | nil => simp at hi
  | cons a l ih =>
    rw [List.findIdx?_cons] at hi
    by_cases ha : P a = true
    · simp only [ha, if_true, Option.some.injEq] at hi
      subst hi
      simp [ha, hP]
    · simp only [ha, Bool.false_eq_true, if_false, Option.map_eq_some_iff] at hi
      obtain ⟨j, hj, rfl⟩ := hi
      simp [ha, ih hj]

theorem find?_modify_miss {α : Type} {l : List α} {i : Nat} {f : α → α} {Q : α → Bool}
    (hi : ∀ x, l[i]? = some x → Q x = false ∧ Q (f x) = false) :
    (l.modify i f).find? Q = l.find? Q := by
  induction l generalizing i with
  | nil => cases i <;> simp
  | cons a l ih =>
    cases i with
    | zero =>
      have := hi a (by simp)
      simp [this.1, this.2]
    | succ i =>
      simp only [List.modify_succ_cons, List.find?_cons]
      rw [ih (fun x hx => hi x (by simpa using hx))]

theorem find?_modifyFirst_hit {α : Type} {l : List α} {f : α → α} {P : α → Bool}
    (hP : ∀ x, P (f x) = P x) : (modifyFirst P f l).find? P = (l.find? P).map f := by
  induction l with
  | nil => rfl
  | cons a l ih =>
    by_cases ha : P a = true
    · simp [modifyFirst, ha, hP]
    · simp [modifyFirst, ha, ih]

theorem find?_modifyFirst_miss {α : Type} {l : List α} {f : α → α} {P Q : α → Bool}
    (hP : ∀ x, P x = true → Q x = false ∧ Q (f x) = false) :
    (modifyFirst P f l).find? Q = l.find? Q := by
  induction l with
  | nil => rfl
  | cons a l ih =>
    by_cases ha : P a = true
    · simp [modifyFirst, ha, hP a ha]
    · simp [modifyFirst, ha, ih, List.find?_cons]

theorem map_modifyFirst {α β : Type} {l : List α} {f : α → α} {P : α → Bool} {g : α → β}
    (h : ∀ x, g (f x) = g x) : (modifyFirst P f l).map g = l.map g := by
  induction l with
  | nil => rfl
  | cons a l ih =>
    by_cases ha : P a = true
    · simp [modifyFirst, ha, h]
    · simp [modifyFirst, ha, ih]

theorem map_modify {α β : Type} {l : List α} {i : Nat} {f : α → α} {g : α → β}
    (h : ∀ x, g (f x) = g x) : (l.modify i f).map g = l.map g := by
  induction l generalizing i with
  | nil => cases i <;> simp
  | cons a l ih => cases i <;> simp [h, ih]

theorem mem_modify {α : Type} {l : List α} {i : Nat} {f : α → α} {x : α} (h : x ∈ l.modify i f) :
    x ∈ l ∨ ∃ y ∈ l, x = f y := by
  induction l generalizing i with
  | nil => cases i <;> simp at h
  | cons a l ih =>
    cases i with
    | zero =>
      simp only [List.modify_zero_cons, List.mem_cons] at h
      rcases h with rfl | h
      · exact .inr ⟨a, by simp, rfl⟩
      · exact .inl (by simp [h])
    | succ i =>
      simp only [List.modify_succ_cons, List.mem_cons] at h
      rcases h with rfl | h
      · exact .inl (by simp)
      · rcases ih h with h | ⟨y, hy, rfl⟩
        · exact .inl (by simp [h])
        · exact .inr ⟨y, by simp [hy], rfl⟩

/-! ### Uniqueness -/

theorem Uniq.elim {b : Block} (h : b.Uniq) : (b.settings.map Setting.name).Nodup ∧
    (b.subs.map key).Nodup ∧ ∀ c ∈ b.subs, c.Uniq := by
  cases h with
  | mk h1 h2 h3 => exact ⟨h1, h2, h3⟩

theorem Uniq.intro {b : Block} (h1 : (b.settings.map Setting.name).Nodup)
    (h2 : (b.subs.map key).Nodup) (h3 : ∀ c ∈ b.subs, c.Uniq) : b.Uniq := by
  cases b
  exact .mk h1 h2 h3

theorem uniq_fresh (t : Nat) (n s : Str) : (fresh t n s).Uniq := .mk (by simp) (by simp) (by simp)

theorem uniq_addSetting {b : Block} (h : b.Uniq) (s : Setting) : (b.addSetting s).Uniq := by
  obtain ⟨h1, h2, h3⟩ := h.elim
  unfold addSetting
  split
  · refine .mk ?_ h2 h3
    rw [map_modifyFirst (g := Setting.name) (by intro x; rfl)]
    exact h1
  · rename_i hn
    refine .mk ?_ h2 h3
    rw [List.map_append, List.nodup_append]
    refine ⟨h1, by simp, ?_⟩
    intro a ha b' hb' hab
    subst hab
    simp only [List.map_cons, List.map_nil, List.mem_singleton] at hb'
    subst hb'
    apply hn
    obtain ⟨x, hx, hxn⟩ := List.mem_map.1 ha
    simp only [hasSetting, List.any_eq_true]
    exact ⟨x, hx, by simp [hxn]⟩

theorem uniq_addSubBlock {b : Block} (h : b.Uniq) (t : Nat) (n s : Str) :
    (b.addSubBlock t n s).1.Uniq := by
  obtain ⟨h1, h2, h3⟩ := h.elim
  unfold addSubBlock
  split
  · exact h
  · rename_i hn
    refine .mk h1 ?_ ?_
    · change (List.map key _).Nodup
      rw [List.map_append, List.nodup_append]
      refine ⟨h2, by simp, ?_⟩
      intro a ha b' hb' hab
      subst hab
      simp only [List.map_cons, List.map_nil, List.mem_singleton] at hb'
      subst hb'
      obtain ⟨x, hx, hxn⟩ := List.mem_map.1 ha
      unfold subIdx? at hn
      rw [List.findIdx?_eq_none_iff] at hn
      have := hn x hx
      rw [(hasTypeAndName_iff (n := n) (t := t)).2 hxn] at this
      cases this
    · intro c hc
      rcases List.mem_append.1 hc with hc | hc
      · exact h3 c hc
      · simp only [List.mem_singleton] at hc
        subst hc
        exact uniq_fresh t n s

theorem key_modifyAt {f : Block → Block} (hf : ∀ b, (f b).key = b.key) (p : List Nat) (b : Block) :
    (modifyAt p f b).key = b.key := by
  cases p with
  | nil => exact hf b
  | cons i p => rfl

theorem uniq_modifyAt {f : Block → Block} (hk : ∀ b, (f b).key = b.key)
    (hf : ∀ b : Block, b.Uniq → (f b).Uniq) (p : List Nat) {b : Block} (h : b.Uniq) :
    (modifyAt p f b).Uniq := by
  induction p generalizing b with
  | nil => exact hf b h
  | cons i p ih =>
    obtain ⟨h1, h2, h3⟩ := h.elim
    refine .mk h1 ?_ ?_
    · change (List.map key _).Nodup
      rw [map_modify (fun x => key_modifyAt hk p x)]
      exact h2
    · intro c hc
      rcases mem_modify hc with hc | ⟨y, hy, rfl⟩
      · exact h3 c hc
      · exact ih (h3 y hy)

end Block

/-! ### The interpreter keeps trees free of duplicates -/

def StmtRes.AllUniq : StmtRes → Prop
  | .ub => True
  | .ok st _ => st.root.Uniq
  | .exn st _ => st.root.Uniq

theorem thenExpect_uniq {ty : TokTy} {st : ISt} {s : List Tok} {k : List Tok → StmtRes}
    (h : st.root.Uniq) (hk : ∀ s', (k s').AllUniq) : (thenExpect ty st s k).AllUniq := by
  unfold thenExpect
  split
  · trivial
  · exact hk _
  · exact h

theorem enterBlock_uniq {st : ISt} (h : st.root.Uniq) (t : Nat) (n s : Str) :
    (enterBlock st t n s).root.Uniq :=
  Block.uniq_modifyAt (fun b => Block.key_addSubBlock b t n s)
    (fun _ hb => Block.uniq_addSubBlock hb t n s) st.path h

theorem stmt_uniq (reg : Registry) {st : ISt} (h : st.root.Uniq) (s : List Tok) :
    (stmt reg st s).AllUniq := by
  unfold stmt
  split
  · trivial
  · split
    · unfold stmtName
      apply thenExpect_uniq h
      intro s1
      apply thenExpect_uniq h
      intro s2
      split
      · trivial
      · have (x : Setting) : (Block.modifyAt st.path (fun b => b.addSetting x) st.root).Uniq :=
          Block.uniq_modifyAt (fun b => Block.key_addSetting b _)
            (fun _ hb => Block.uniq_addSetting hb _) st.path h
        apply thenExpect_uniq (this _)
        intro s4
        exact this _
    · unfold stmtBlock
      apply thenExpect_uniq h
      intro s1
      simp only
      split
      · trivial
      · split
        · trivial
        · apply thenExpect_uniq h
          intro s3
          apply thenExpect_uniq h
          intro s4
          apply thenExpect_uniq h
          intro s5
          exact enterBlock_uniq h _ _ _
      · apply thenExpect_uniq h
        intro s2
        exact enterBlock_uniq h _ _ _
    · split
      · exact h
      · exact h
    · exact h

end Softlib.Config
