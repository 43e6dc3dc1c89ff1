/-
Lemmas about copying and merging blocks.
-/
import Verif.Config.MergeModel
import Verif.Config.DocLemmas

namespace Softlib.Config

namespace Block

/-- Induction over blocks. -/
theorem ind {P : Block → Prop}
    (h : ∀ t n s sets sub, (∀ c ∈ sub, P c) → P (mk t n s sets sub)) (b : Block) : P b :=
  Block.rec (motive_1 := P) (motive_2 := fun l => ∀ c ∈ l, P c)
    (fun t n s sets sub ih => h t n s sets sub ih) (by simp)
    (fun _ _ h1 h2 c hc => by
      rcases List.mem_cons.1 hc with rfl | hc
      · exact h1
      · exact h2 c hc) b

/-- The first sub-block with a key. -/
def sub? (b : Block) (k : Nat × Str) : Option Block :=
  b.subs.find? (fun c => c.ty == k.1 && c.name == k.2)

theorem valuesAt_cons' (b : Block) (k : Nat × Str) (p : List (Nat × Str)) (n : Str) :
    b.valuesAt (k :: p) n = (b.sub? k).bind (fun c => c.valuesAt p n) := by
  rw [valuesAt_cons]
  cases h : b.sub? k <;> (unfold sub? at h; rw [h]; rfl)

theorem find_cons' (b : Block) (k : Nat × Str) (p : List (Nat × Str)) :
    b.find (k :: p) = (b.sub? k).bind (fun c => c.find p) := by
  obtain ⟨t, m⟩ := k
  simp only [find]
  cases h : b.sub? (t, m) <;> (unfold sub? at h; rw [h]; rfl)

theorem keyBeq (k : Nat × Str) (c : Block) : (c.ty == k.1 && c.name == k.2) = decide (c.key = k) := by
  rw [Bool.eq_iff_iff]
  simp [key, Prod.ext_iff]

theorem sub?_eq (b : Block) (k : Nat × Str) : b.sub? k = b.subs.find? (fun c => decide (c.key = k)) := by
  unfold sub?; congr 1; funext c; exact keyBeq k c

theorem sub?_key {b : Block} {k : Nat × Str} {c : Block} (h : b.sub? k = some c) : c.key = k := by
  rw [sub?_eq] at h
  simpa using List.find?_some h

theorem sub?_mem {b : Block} {k : Nat × Str} {c : Block} (h : b.sub? k = some c) : c ∈ b.subs := by
  rw [sub?_eq] at h
  exact List.mem_of_find?_eq_some h

theorem subIdx?_eq_none {b : Block} {t : Nat} {n : Str} : b.subIdx? t n = none ↔ b.sub? (t, n) = none := by
  unfold subIdx? sub? hasTypeAndName
  rw [List.findIdx?_eq_none_iff, List.find?_eq_none]
  simp

/-- The index found is that of the first sub-block with the key. -/
theorem subAt_of_subIdx {b : Block} {t : Nat} {n : Str} {i : Nat} (h : b.subIdx? t n = some i) :
    b.sub? (t, n) = some (b.subAt i) ∧ i < b.subs.length ∧ b.subs[i]? = some (b.subAt i) := by
  unfold subIdx? at h
  have hf : List.findIdx? (fun c => c.hasTypeAndName t n) b.subs = some i := h
  rw [List.findIdx?_eq_some_iff_getElem] at h
  obtain ⟨hi, h1, h2⟩ := h
  have hg : b.subs[i]? = some b.subs[i] := by simp [hi]
  have e : b.subAt i = b.subs[i] := by simp [subAt, hg]
  refine ⟨?_, hi, by rw [e, hg]⟩
  rw [sub?, List.find?_eq_some_iff_getElem, e]
  exact ⟨h1, i, hi, rfl, fun j hj => by
    have := h2 j hj
    simpa only [hasTypeAndName, Bool.not_eq_true, Bool.not_eq_eq_eq_not, Bool.not_true] using this⟩

theorem set_eq_modify {α : Type} (l : List α) (i : Nat) (x : α) : l.set i x = l.modify i (fun _ => x) := by
  induction l generalizing i with
  | nil => cases i <;> simp
  | cons a l ih => cases i <;> simp [ih]

theorem sub?_setSub {b d : Block} {t : Nat} {n : Str} {i : Nat} (h : b.subIdx? t n = some i)
    (hd : d.key = (t, n)) (k : Nat × Str) :
    (b.setSub i d).sub? k = if k = (t, n) then some d else b.sub? k := by
  obtain ⟨h1, h2, h3⟩ := subAt_of_subIdx h
  rw [sub?_eq, sub?_eq]
  change List.find? _ (b.subs.set i d) = _
  by_cases hk : k = (t, n)
  · subst hk
    rw [(List.find?_eq_some_iff_getElem (b := d)).2]
    · simp
    · refine ⟨by simp [hd], i, by simpa using h2, by simp, ?_⟩
      intro j hj
      have hj' : j < b.subs.length := by omega
      have : (b.subs.set i d)[j]'(by simpa using hj') = b.subs[j] := by
        rw [List.getElem_set_ne (by omega)]
      rw [this]
      unfold subIdx? at h
      rw [List.findIdx?_eq_some_iff_getElem] at h
      obtain ⟨_, _, h5⟩ := h
      have := h5 j hj
      rw [hasTypeAndName_iff] at this
      simp [this]
  · simp only [hk, if_false]
    rw [set_eq_modify]
    apply find?_modify_miss
    intro x hx
    rw [h3] at hx
    cases hx
    have := sub?_key h1
    simp [this, hd, Ne.symm hk]

theorem sub?_addExisting {b c : Block} (h : b.subIdx? c.ty c.name = none) (k : Nat × Str) :
    (b.addExisting c).sub? k = if k = c.key then some c else b.sub? k := by
  have hn : b.sub? c.key = none := subIdx?_eq_none.1 h
  rw [sub?_eq, sub?_eq]
  rw [sub?_eq] at hn
  unfold addExisting
  rw [h]
  change List.find? _ (b.subs ++ [c]) = _
  rw [List.find?_append]
  by_cases hk : k = c.key
  · subst hk; simp [hn]
  · cases b.subs.find? (fun x => decide (x.key = k)) <;> simp [hk, Ne.symm hk]

/-! ### Copies -/

theorem copyList_eq (l : List Block) : copyList l = l.map copy := by
  induction l with
  | nil => rfl
  | cons b l ih => simp [copyList, ih]

theorem copy_key (b : Block) : b.copy.key = b.key := by cases b; rfl

theorem sub?_copy (b : Block) (k : Nat × Str) : b.copy.sub? k = (b.sub? k).map copy := by
  obtain ⟨t, n, s, sets, sub⟩ := b
  rw [sub?_eq, sub?_eq]
  change List.find? _ (copyList sub) = Option.map copy (List.find? _ sub)
  rw [copyList_eq, List.find?_map]
  congr 2
  funext c
  simp [copy_key]

theorem valuesAt_copy (b : Block) (p : List (Nat × Str)) (n : Str) :
    b.copy.valuesAt p n = b.valuesAt p n := by
  induction p generalizing b with
  | nil =>
    obtain ⟨t, m, s, sets, sub⟩ := b
    simp only [valuesAt_nil, copy, settings]
    rw [List.find?_map]
    simp [Function.comp_def]
  | cons k p ih =>
    rw [valuesAt_cons', valuesAt_cons', sub?_copy]
    cases b.sub? k with
    | none => rfl
    | some c => simp [ih]

theorem find_copy_isSome (b : Block) (p : List (Nat × Str)) :
    (b.copy.find p).isSome = (b.find p).isSome := by
  induction p generalizing b with
  | nil => rfl
  | cons k p ih =>
    rw [find_cons', find_cons', sub?_copy]
    cases b.sub? k with
    | none => rfl
    | some c => simp [ih]

/-! ### The settings loop -/

theorem hasSetting_iff (b : Block) (n : Str) : b.hasSetting n = (b.valuesAt [] n).isSome := by
  rw [valuesAt_nil, Bool.eq_iff_iff]
  simp [hasSetting]

theorem mergeSetting_values {b : Block} {s : Setting} (h : b.hasSetting s.name = true) (n : Str) :
    (b.mergeSetting s).valuesAt [] n = if s.name = n then some s.values else b.valuesAt [] n := by
  rw [valuesAt_nil, valuesAt_nil]
  change Option.map _ (List.find? _ (modifyFirst _ _ _)) = _
  by_cases hn : s.name = n
  · subst hn
    simp only [if_true]
    rw [find?_modifyFirst_hit (by intro x; rfl)]
    rw [hasSetting_iff, valuesAt_nil] at h
    cases hf : b.settings.find? (fun x => x.name == s.name) with
    | none => simp [hf] at h
    | some x => rfl
  · simp only [hn, if_false]
    rw [find?_modifyFirst_miss]
    intro x hx
    have : x.name = s.name := by simpa using hx
    simp [this, hn]

theorem addSetting_subs (b : Block) (s : Setting) : (b.addSetting s).subs = b.subs := by
  unfold addSetting; split <;> rfl

theorem addSetting_sec (b : Block) (s : Setting) : (b.addSetting s).sec = b.sec := by
  unfold addSetting; split <;> rfl

theorem mergeSettings_subs (an : Bool) (ss : List Setting) (b : Block) (u : Option (List Str)) :
    (mergeSettings an ss (b, u)).1.subs = b.subs ∧ (mergeSettings an ss (b, u)).1.key = b.key ∧
    (mergeSettings an ss (b, u)).1.sec = b.sec := by
  induction ss generalizing b u with
  | nil => exact ⟨rfl, rfl, rfl⟩
  | cons s ss ih =>
    simp only [mergeSettings]
    split
    · obtain ⟨h1, h2, h3⟩ := ih (b.mergeSetting s) u
      exact ⟨h1, h2, h3⟩
    · split
      · obtain ⟨h1, h2, h3⟩ := ih (b.addSetting s) u
        exact ⟨h1.trans (addSetting_subs b s), h2.trans (key_addSetting b s), h3.trans (addSetting_sec b s)⟩
      · exact ih b _

theorem mergeSettings_values (an : Bool) (ss : List Setting) (hs : (ss.map Setting.name).Nodup)
    (b : Block) (u : Option (List Str)) (n : Str) :
    (mergeSettings an ss (b, u)).1.valuesAt [] n =
      if an = true ∨ (b.valuesAt [] n).isSome = true then
        ((ss.find? (fun s => s.name == n)).map Setting.values).or (b.valuesAt [] n)
      else b.valuesAt [] n := by
  induction ss generalizing b u with
  | nil => simp [mergeSettings]
  | cons s ss ih =>
    simp only [List.map_cons, List.nodup_cons] at hs
    have hlook : s.name = n → (ss.find? (fun s => s.name == n)) = none := by
      rintro rfl
      rw [List.find?_eq_none]
      intro x hx h
      exact hs.1 (List.mem_map.2 ⟨x, hx, by simpa using h⟩)
    simp only [mergeSettings]
    split
    · rename_i hh
      rw [ih hs.2, mergeSetting_values hh]
      by_cases hn : s.name = n
      · subst hn
        rw [hasSetting_iff] at hh
        simp [hlook rfl, hh]
      · have hb : (s.name == n) = false := by simp [hn]
        simp [hn]
    · rename_i hh
      split
      · rename_i ha
        subst ha
        rw [ih hs.2, valuesAt_addSetting]
        by_cases hn : s.name = n
        · subst hn
          simp [hlook rfl]
        · simp [hn]
      · rename_i ha
        rw [ih hs.2]
        by_cases hn : s.name = n
        · subst hn
          rw [hasSetting_iff] at hh
          have hb : b.valuesAt [] s.name = none := by
            cases h : b.valuesAt [] s.name with
            | none => rfl
            | some v => rw [h] at hh; exact absurd rfl hh
          simp [hlook rfl, hb, ha]
        · simp [hn]

/-! ### The sub-block loop -/

theorem setSub_key (b : Block) (i : Nat) (c : Block) : (b.setSub i c).key = b.key := rfl

theorem addExisting_key (b c : Block) : (b.addExisting c).key = b.key := by
  unfold addExisting; split <;> rfl

theorem mergeSubs_key (an : Bool) (cs : List Block) (b : Block) (u : Option (List Str)) :
    (mergeSubs an cs (b, u)).1.key = b.key := by
  induction cs generalizing b u with
  | nil => simp [mergeSubs]
  | cons c cs ih =>
    simp only [mergeSubs]
    split
    · rw [ih, setSub_key]
    · split
      · rw [ih, addExisting_key]
      · exact ih b _

theorem merge_key (an : Bool) (c b : Block) : (merge an c b).1.key = b.key := by
  obtain ⟨t, n, s, sets, sub⟩ := c
  simp only [merge]
  obtain ⟨h1, h2, -⟩ := mergeSettings_subs an sets b none
  cases hm : mergeSettings an sets (b, none) with
  | mk b' u' =>
    rw [hm] at h2
    rw [mergeSubs_key]
    exact h2

theorem addExisting_settings (b c : Block) : (b.addExisting c).settings = b.settings := by
  unfold addExisting; split <;> rfl

theorem mergeSubs_settings (an : Bool) (cs : List Block) (b : Block) (u : Option (List Str)) :
    (mergeSubs an cs (b, u)).1.settings = b.settings := by
  induction cs generalizing b u with
  | nil => simp [mergeSubs]
  | cons c cs ih =>
    simp only [mergeSubs]
    split
    · rw [ih]; rfl
    · split
      · rw [ih, addExisting_settings]
      · exact ih b _

/-- The block found under a key after the sub-block loop. -/
theorem mergeSubs_sub? (an : Bool) (cs : List Block) (hc : (cs.map key).Nodup) (b : Block)
    (u : Option (List Str)) (k : Nat × Str) :
    (mergeSubs an cs (b, u)).1.sub? k =
      match cs.find? (fun c => decide (c.key = k)) with
      | none => b.sub? k
      | some c =>
        match b.sub? k with
        | some d => some (merge an c d).1
        | none => if an then some c.copy else none := by
  induction cs generalizing b u with
  | nil => simp [mergeSubs]
  | cons c cs ih =>
    simp only [List.map_cons, List.nodup_cons] at hc
    have hlook : c.key = k → (cs.find? (fun x => decide (x.key = k))) = none := by
      rintro rfl
      rw [List.find?_eq_none]
      intro x hx h
      exact hc.1 (List.mem_map.2 ⟨x, hx, by simpa using h⟩)
    simp only [mergeSubs]
    cases hi : b.subIdx? c.ty c.name with
    | some i =>
      simp only
      obtain ⟨h1, -, -⟩ := subAt_of_subIdx hi
      have hk : (merge an c (b.subAt i)).1.key = (c.ty, c.name) := by
        rw [merge_key]; exact sub?_key h1
      rw [ih hc.2, sub?_setSub hi hk]
      by_cases hck : c.key = k
      · subst hck
        have hkk : c.key = (c.ty, c.name) := rfl
        rw [hlook rfl]
        simp [hkk, h1]
      · have : ¬ k = (c.ty, c.name) := fun e => hck e.symm
        simp [this, hck]
    | none =>
      have hn : b.sub? c.key = none := subIdx?_eq_none.1 hi
      simp only
      split
      · rename_i ha
        subst ha
        have hi' : b.subIdx? c.copy.ty c.copy.name = none := by
          have := copy_key c
          simp only [key, Prod.mk.injEq] at this
          rw [this.1, this.2]; exact hi
        rw [ih hc.2, sub?_addExisting hi', copy_key]
        by_cases hck : c.key = k
        · subst hck
          rw [hlook rfl]
          simp [hn]
        · have : ¬ k = c.key := fun e => hck e.symm
          simp [this, hck]
      · rename_i ha
        rw [ih hc.2]
        by_cases hck : c.key = k
        · subst hck
          rw [hlook rfl]
          simp [hn, ha]
        · have : an = false := by simpa using ha
          subst this
          simp [hck]

theorem merge_sub? (an : Bool) (c b : Block) (hc : c.Uniq) (k : Nat × Str) :
    (merge an c b).1.sub? k =
      match c.sub? k with
      | none => b.sub? k
      | some c' =>
        match b.sub? k with
        | some d => some (merge an c' d).1
        | none => if an then some c'.copy else none := by
  obtain ⟨-, h2, -⟩ := hc.elim
  rw [sub?_eq c k]
  obtain ⟨t, n, s, sets, sub⟩ := c
  simp only [merge]
  obtain ⟨h1, -, -⟩ := mergeSettings_subs an sets b none
  cases hm : mergeSettings an sets (b, none) with
  | mk b' u' =>
    rw [hm] at h1
    rw [mergeSubs_sub? an sub h2 b' u' k]
    have : b'.sub? k = b.sub? k := by unfold sub?; rw [h1]
    rw [this]
    rfl

theorem merge_values_nil (an : Bool) (c b : Block) (hc : c.Uniq) (n : Str) :
    (merge an c b).1.valuesAt [] n =
      if an = true ∨ (b.valuesAt [] n).isSome = true then
        (c.valuesAt [] n).or (b.valuesAt [] n) else b.valuesAt [] n := by
  obtain ⟨h1, -, -⟩ := hc.elim
  obtain ⟨t, m, s, sets, sub⟩ := c
  have := mergeSettings_values an sets h1 b none n
  simp only [merge]
  cases hm : mergeSettings an sets (b, none) with
  | mk b' u' =>
    rw [hm] at this
    rw [valuesAt_nil, mergeSubs_settings, ← valuesAt_nil]
    exact this

theorem uniq_sub? {c c' : Block} (h : c.Uniq) {k : Nat × Str} (e : c.sub? k = some c') : c'.Uniq :=
  h.elim.2.2 c' (sub?_mem e)

theorem merge_values (an : Bool) (c b : Block) (hc : c.Uniq) (p : List (Nat × Str)) (n : Str) :
    (merge an c b).1.valuesAt p n =
      if an = true ∨ (b.valuesAt p n).isSome = true then
        (c.valuesAt p n).or (b.valuesAt p n) else b.valuesAt p n := by
  induction p generalizing b c with
  | nil => exact merge_values_nil an c b hc n
  | cons k p ih =>
    rw [valuesAt_cons', valuesAt_cons', valuesAt_cons', merge_sub? an c b hc]
    cases hs : c.sub? k with
    | none => simp
    | some c' =>
      cases hb : b.sub? k with
      | some d => simp [ih c' d (uniq_sub? hc hs)]
      | none =>
        cases an with
        | true => simp [valuesAt_copy]
        | false => simp

theorem merge_find (c b : Block) (hc : c.Uniq) (p : List (Nat × Str)) :
    ((merge true c b).1.find p).isSome = ((c.find p).isSome || (b.find p).isSome) := by
  induction p generalizing b c with
  | nil => simp [find]
  | cons k p ih =>
    rw [find_cons', find_cons', find_cons', merge_sub? true c b hc]
    cases hs : c.sub? k with
    | none => simp
    | some c' =>
      cases hb : b.sub? k with
      | some d => simp [ih c' d (uniq_sub? hc hs)]
      | none => simp [find_copy_isSome]

/-! ### Unknown names -/

def names (u : Option (List Str)) : List Str := u.getD []

theorem names_push (u : Option (List Str)) (n : Str) : names (pushUnknown u n) = names u ++ [n] := by
  cases u <;> rfl

theorem names_join (u v : Option (List Str)) : names (joinUnknown u v) = names u ++ names v := by
  cases u <;> cases v <;> simp [names, joinUnknown]

theorem push_ne (u : Option (List Str)) (n : Str) : pushUnknown u n ≠ some [] := by
  cases u <;> simp [pushUnknown]

theorem join_ne {u v : Option (List Str)} (hu : u ≠ some []) (hv : v ≠ some []) :
    joinUnknown u v ≠ some [] := by
  cases u <;> cases v <;> simp_all [joinUnknown]

theorem mergeSettings_unknown (ss : List Setting) (b : Block) (u : Option (List Str)) (m : Str) :
    m ∈ names (mergeSettings false ss (b, u)).2 ↔
      m ∈ names u ∨ ∃ s ∈ ss, s.name = m ∧ b.hasSetting m = false := by
  induction ss generalizing b u with
  | nil => simp [mergeSettings]
  | cons s ss ih =>
    simp only [mergeSettings]
    split
    · rename_i hh
      rw [ih]
      have heq : ∀ x, (b.mergeSetting s).hasSetting x = b.hasSetting x := by
        intro x
        rw [hasSetting_iff, hasSetting_iff, mergeSetting_values hh]
        by_cases hx : s.name = x
        · subst hx
          rw [hasSetting_iff] at hh
          simp [hh]
        · simp [hx]
      simp only [heq, List.mem_cons, exists_eq_or_imp]
      constructor
      · rintro (h | h)
        · exact .inl h
        · exact .inr (.inr h)
      · rintro (h | ⟨rfl, h⟩ | h)
        · exact .inl h
        · rw [hh] at h; cases h
        · exact .inr h
    · rename_i hh
      simp only [Bool.false_eq_true, if_false]
      rw [ih, names_push]
      simp only [List.mem_append, List.mem_cons, List.not_mem_nil, or_false, exists_eq_or_imp]
      have hh' : b.hasSetting s.name = false := by simpa using hh
      constructor
      · rintro ((h | rfl) | h)
        · exact .inl h
        · exact .inr (.inl ⟨rfl, hh'⟩)
        · exact .inr (.inr h)
      · rintro (h | ⟨rfl, h⟩ | h)
        · exact .inl (.inl h)
        · exact .inl (.inr rfl)
        · exact .inr h

theorem mergeSettings_ne (an : Bool) (ss : List Setting) (b : Block) (u : Option (List Str)) (hu : u ≠ some []) :
    (mergeSettings an ss (b, u)).2 ≠ some [] ∧ (an = true → (mergeSettings an ss (b, u)).2 = u) := by
  induction ss generalizing b u with
  | nil => simp [mergeSettings, hu]
  | cons s ss ih =>
    simp only [mergeSettings]
    split
    · exact ih _ _ hu
    · split
      · exact ih _ _ hu
      · rename_i ha
        exact ⟨(ih _ _ (push_ne u s.name)).1, fun h => absurd h ha⟩

theorem mergeSubs_ne_aux (an : Bool) (cs : List Block)
    (hcs : ∀ c ∈ cs, ∀ b, (merge an c b).2 ≠ some [] ∧ (an = true → (merge an c b).2 = none))
    (b : Block) (u : Option (List Str)) (hu : u ≠ some []) :
    (mergeSubs an cs (b, u)).2 ≠ some [] ∧ (an = true → (mergeSubs an cs (b, u)).2 = u) := by
  induction cs generalizing b u with
  | nil => simp [mergeSubs, hu]
  | cons c cs ih =>
    have ih' := ih (fun x hx => hcs x (by simp [hx]))
    simp only [mergeSubs]
    split
    · rename_i i hi
      have h1 := hcs c (by simp) (b.subAt i)
      have h2 := ih' (b.setSub i (merge an c (b.subAt i)).1) _ (join_ne hu h1.1)
      refine ⟨h2.1, fun ha => ?_⟩
      rw [h2.2 ha, h1.2 ha]
      rfl
    · split
      · exact ih' _ _ hu
      · rename_i ha
        exact ⟨(ih' _ _ (push_ne u c.name)).1, fun h => absurd h ha⟩

theorem merge_ne (an : Bool) (c : Block) : ∀ b, (merge an c b).2 ≠ some [] ∧
    (an = true → (merge an c b).2 = none) := by
  induction c using ind with
  | h t n s sets sub ih =>
    intro b
    simp only [merge]
    have h1 := mergeSettings_ne an sets b none (by simp)
    cases hm : mergeSettings an sets (b, none) with
    | mk b' u' =>
      rw [hm] at h1
      have h2 := mergeSubs_ne_aux an sub ih b' u' h1.1
      exact ⟨h2.1, fun ha => (h2.2 ha).trans (h1.2 ha)⟩

theorem mergeSubs_unknown (cs : List Block) (hc : (cs.map key).Nodup) (b : Block)
    (u : Option (List Str)) (m : Str) :
    m ∈ names (mergeSubs false cs (b, u)).2 ↔ m ∈ names u ∨ ∃ c ∈ cs,
      (b.sub? c.key = none ∧ c.name = m) ∨
      (∃ d, b.sub? c.key = some d ∧ m ∈ names (merge false c d).2) := by
  induction cs generalizing b u with
  | nil => simp [mergeSubs]
  | cons c cs ih =>
    simp only [List.map_cons, List.nodup_cons] at hc
    have hne : ∀ x ∈ cs, x.key ≠ c.key := fun x hx e => hc.1 (List.mem_map.2 ⟨x, hx, e⟩)
    simp only [mergeSubs]
    cases hi : b.subIdx? c.ty c.name with
    | some i =>
      simp only
      obtain ⟨h1, -, -⟩ := subAt_of_subIdx hi
      have hk : (merge false c (b.subAt i)).1.key = (c.ty, c.name) := by
        rw [merge_key]; exact sub?_key h1
      have h1' : b.sub? c.key = some (b.subAt i) := h1
      rw [ih hc.2, names_join]
      have heq : ∀ x ∈ cs, (b.setSub i (merge false c (b.subAt i)).1).sub? x.key = b.sub? x.key := by
        intro x hx
        rw [sub?_setSub hi hk]
        have : ¬ x.key = (c.ty, c.name) := hne x hx
        simp [this]
      simp only [List.mem_append, List.mem_cons, exists_eq_or_imp, h1']
      constructor
      · rintro ((h | h) | ⟨x, hx, h⟩)
        · exact .inl h
        · exact .inr (.inl (.inr ⟨_, rfl, h⟩))
        · rw [heq x hx] at h
          exact .inr (.inr ⟨x, hx, h⟩)
      · rintro (h | (⟨h, -⟩ | ⟨d, h, hm⟩) | ⟨x, hx, h⟩)
        · exact .inl (.inl h)
        · cases h
        · cases h; exact .inl (.inr hm)
        · rw [← heq x hx] at h
          exact .inr ⟨x, hx, h⟩
    | none =>
      have hn : b.sub? c.key = none := subIdx?_eq_none.1 hi
      simp only [Bool.false_eq_true, if_false]
      rw [ih hc.2, names_push]
      simp only [List.mem_append, List.mem_cons, List.not_mem_nil, or_false, exists_eq_or_imp, hn]
      constructor
      · rintro ((h | rfl) | h)
        · exact .inl h
        · exact .inr (.inl (.inl ⟨trivial, rfl⟩))
        · exact .inr (.inr h)
      · rintro (h | (⟨-, rfl⟩ | ⟨d, h, -⟩) | h)
        · exact .inl (.inl h)
        · exact .inl (.inr rfl)
        · cases h
        · exact .inr h

theorem merge_unknown (c b : Block) (hc : c.Uniq) (m : Str) :
    m ∈ names (merge false c b).2 ↔
      (∃ s ∈ c.settings, s.name = m ∧ b.hasSetting m = false) ∨ ∃ x ∈ c.subs,
      (b.sub? x.key = none ∧ x.name = m) ∨
      (∃ d, b.sub? x.key = some d ∧ m ∈ names (merge false x d).2) := by
  obtain ⟨-, h2, -⟩ := hc.elim
  obtain ⟨t, n, s, sets, sub⟩ := c
  simp only [merge]
  obtain ⟨h1, -, -⟩ := mergeSettings_subs false sets b none
  have h4 := mergeSettings_unknown sets b none m
  cases hm : mergeSettings false sets (b, none) with
  | mk b' u' =>
    rw [hm] at h1 h4
    rw [mergeSubs_unknown sub h2 b' u' m, h4]
    have : ∀ k, b'.sub? k = b.sub? k := by intro k; unfold sub?; rw [h1]
    simp [this, names, settings, subs]

end Block

end Softlib.Config
