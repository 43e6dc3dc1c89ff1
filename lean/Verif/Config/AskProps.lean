/-
Property C140: the questions that can be asked about a configuration block agree with each other
and with what was put into the block.
-/
import Verif.Config.AskModel
import Verif.Config.BuiltProps

namespace Softlib

open Softlib.Config Softlib.Config.Block

/-- **C140**, settings: `HasSetting`, `GetSetting` and `operator[]` agree with the list returned by
`GetAllSettings`; a question for a missing setting changes nothing. -/
theorem C140_settings (b : Block) (n : Str) :
    (b.hasSetting n = true ↔ ∃ s ∈ b.settings, s.name = n) ∧
    ((b.getSetting n).1 ≠ none ↔ ∃ s ∈ b.settings, s.name = n) ∧
    ((b.index n).1 = .missing ↔ ∀ s ∈ b.settings, s.name ≠ n) ∧
    ((∀ s ∈ b.settings, s.name ≠ n) → (b.getSetting n).2 = b ∧ (b.index n).2 = b) := by
  have h1 : b.hasSetting n = true ↔ ∃ s ∈ b.settings, s.name = n := by
    simp [hasSetting]
  have hf : (b.settings.find? (fun s => s.name == n) = none) ↔ ∀ s ∈ b.settings, s.name ≠ n := by
    simp [List.find?_eq_none]
  refine ⟨h1, ?_, ?_, ?_⟩
  · unfold getSetting
    cases h : b.settings.find? (fun s => s.name == n) with
    | none =>
      have := hf.1 h
      simp only [ne_eq, not_true_eq_false, false_iff]
      rintro ⟨s, hs, e⟩
      exact this s hs e
    | some s =>
      simp only [ne_eq, reduceCtorEq, not_false_eq_true, true_iff]
      exact ⟨s, List.mem_of_find?_eq_some h, by simpa using List.find?_some h⟩
  · unfold index getSetting
    cases h : b.settings.find? (fun s => s.name == n) with
    | none => simpa using hf.1 h
    | some s =>
      have hs := List.mem_of_find?_eq_some h
      have hn : s.name = n := by simpa using List.find?_some h
      simp only
      constructor
      · intro hm
        cases hv : s.values <;> rw [hv] at hm <;> simp at hm
      · intro hm
        exact absurd hn (hm s hs)
  · intro hm
    have := hf.2 hm
    unfold index getSetting
    rw [this]
    exact ⟨rfl, rfl⟩

/-- **C140**, values: in every tree a program can make, `operator[]` gives the first value of the
setting listed under the name (and throws `std::out_of_range` if it has none), marks it as read,
and changes nothing else. -/
theorem C140_value {b : Block} (hb : Built b) (s : Config.Setting) (hs : s ∈ b.settings) :
    (b.index s.name).1 = (match s.values with | [] => .outOfRange | v :: _ => .value v) ∧
    (b.index s.name).2 = .mk b.ty b.name b.sec
      (b.settings.map (fun x => if x.name = s.name then { x with touched := true } else x)) b.subs := by
  have hu := (C13_built_unique hb).elim.1
  have hfind : b.settings.find? (fun x => x.name == s.name) = some s := by
    revert hs hu
    generalize b.settings = l
    induction l with
    | nil => intro h; simp at h
    | cons x l ih =>
      intro hs hu
      rw [List.map_cons, List.nodup_cons] at hu
      rcases List.mem_cons.1 hs with rfl | hs
      · simp
      · have : x.name ≠ s.name := fun e => hu.1 (e ▸ List.mem_map_of_mem hs)
        rw [List.find?_cons_of_neg (by simpa using this)]
        exact ih hs hu.2
  have hmod : modifyFirst (fun x => x.name == s.name) (fun x => { x with touched := true }) b.settings =
      b.settings.map (fun x => if x.name = s.name then { x with touched := true } else x) := by
    revert hu
    generalize b.settings = l
    induction l with
    | nil => intro _; rfl
    | cons x l ih =>
      intro hu
      rw [List.map_cons, List.nodup_cons] at hu
      by_cases hx : x.name = s.name
      · simp only [modifyFirst, hx, beq_self_eq_true, if_true, List.map_cons, List.cons.injEq, true_and]
        symm
        refine (List.map_congr_left fun y hy => ?_).trans (List.map_id _)
        rw [if_neg]
        · rfl
        · intro e
          exact hu.1 (hx.trans e.symm ▸ List.mem_map_of_mem hy)
      · simp only [modifyFirst, beq_iff_eq, hx, if_false, List.map_cons]
        rw [ih hu.2]
  unfold index getSetting
  rw [hfind, ← hmod]
  simp only
  cases s.values <;> simp

/-- What `operator[]` returns for a name depends on its first setting only. -/
theorem index_eq_find (b : Block) (n : Str) : (b.index n).1 =
    match (b.settings.find? (fun s => s.name == n)).map Setting.values with
    | none => .missing
    | some [] => .outOfRange
    | some (v :: _) => .value v := by
  unfold index getSetting
  cases b.settings.find? (fun s => s.name == n) with
  | none => rfl
  | some s =>
    simp only [Option.map_some]
    cases s.values <;> rfl

theorem find_values_add (b : Block) (m : Str) (vs : List Str) (n : Str) :
    ((b.addSetting ⟨m, vs, false⟩).settings.find? (fun s => s.name == n)).map Setting.values =
      if m = n then some vs else (b.settings.find? (fun s => s.name == n)).map Setting.values := by
  unfold addSetting
  split
  · rename_i hm
    change Option.map _ (List.find? _ (modifyFirst _ _ _)) = _
    by_cases e : m = n
    · subst e
      rw [find?_modifyFirst_hit (by intro x; rfl), if_pos rfl]
      cases h : b.settings.find? (fun s => s.name == m) with
      | none =>
        rw [List.find?_eq_none] at h
        simp only [hasSetting, List.any_eq_true] at hm
        obtain ⟨s, hs, hn⟩ := hm
        exact absurd hn (h s hs)
      | some s => rfl
    · rw [if_neg e, find?_modifyFirst_miss]
      · intro x hx
        have hxm : x.name = m := by simpa using hx
        simp only
        rw [hxm]
        simpa using e
  · rename_i hm
    change Option.map _ (List.find? _ (b.settings ++ _)) = _
    rw [List.find?_append]
    by_cases e : m = n
    · subst e
      have : b.settings.find? (fun s => s.name == m) = none := by
        rw [List.find?_eq_none]
        intro s hs hn
        exact hm (by simp only [hasSetting, List.any_eq_true]; exact ⟨s, hs, hn⟩)
      rw [this]
      simp
    · rw [if_neg e]
      simp [e]

theorem find_values_get (b : Block) (m n : Str) :
    ((b.getSetting m).2.settings.find? (fun s => s.name == n)).map Setting.values =
      (b.settings.find? (fun s => s.name == n)).map Setting.values := by
  unfold getSetting
  split
  · rfl
  · change Option.map _ (List.find? _ (modifyFirst _ _ _)) = _
    by_cases e : m = n
    · subst e
      rw [find?_modifyFirst_hit (by intro x; rfl), Option.map_map]
      rfl
    · rw [find?_modifyFirst_miss]
      intro x hx
      have hxm : x.name = m := by simpa using hx
      simp only
      rw [hxm]
      simpa using e

/-- **C140**, histories: whatever was done to the block before, `operator[]` returns the first of
the values that a setting was given last; settings of other names and questions do not matter. -/
theorem C140_last_written (b : Block) (before after : List BlockOp) (n v : Str) (vs : List Str)
    (hlast : ∀ ws, BlockOp.add n ws ∉ after) :
    ((b.applyOps (before ++ .add n (v :: vs) :: after)).index n).1 = .value v := by
  have key : ∀ (ops : List BlockOp) (b : Block), (∀ ws, BlockOp.add n ws ∉ ops) →
      ((b.applyOps ops).settings.find? (fun s => s.name == n)).map Setting.values =
        (b.settings.find? (fun s => s.name == n)).map Setting.values := by
    intro ops
    induction ops with
    | nil => intro b _; rfl
    | cons o ops ih =>
      intro b ho
      rw [show b.applyOps (o :: ops) = (b.applyOp o).applyOps ops from rfl,
        ih _ (fun ws h => ho ws (List.mem_cons_of_mem _ h))]
      cases o with
      | add m ws =>
        simp only [applyOp]
        rw [find_values_add, if_neg]
        rintro rfl
        exact ho ws (List.mem_cons_self ..)
      | get m => exact find_values_get b m n
      | has m => rfl
  rw [index_eq_find]
  rw [show b.applyOps (before ++ .add n (v :: vs) :: after) =
    ((b.applyOps before).addSetting ⟨n, v :: vs, false⟩).applyOps after by
      simp [applyOps, List.foldl_append, applyOp]]
  rw [key _ _ hlast, find_values_add, if_pos rfl]

/-- **C140**, sub-blocks: `HasSubBlock`, `GetConfigBlock` and the list of all sub-blocks agree. -/
theorem C140_sub_blocks (b : Block) (t : Nat) (n : Str) :
    (b.hasSubBlock t n = true ↔ ∃ c ∈ b.subs, c.ty = t ∧ c.name = n) ∧
    (b.getConfigBlock t n ≠ none ↔ ∃ c ∈ b.subs, c.ty = t ∧ c.name = n) ∧
    (∀ c, b.getConfigBlock t n = some c → c ∈ b.subs ∧ c.ty = t ∧ c.name = n) := by
  have h3 : ∀ c, b.getConfigBlock t n = some c → c ∈ b.subs ∧ c.ty = t ∧ c.name = n := by
    intro c hc
    have := List.find?_some hc
    simp only [hasTypeAndName, Bool.and_eq_true, beq_iff_eq] at this
    exact ⟨List.mem_of_find?_eq_some hc, this⟩
  refine ⟨by simp [hasSubBlock, hasTypeAndName], ⟨?_, ?_⟩, h3⟩
  · intro h
    obtain ⟨c, hc⟩ := Option.ne_none_iff_exists'.1 h
    exact ⟨c, h3 c hc⟩
  · rintro ⟨c, hc, ht, hn⟩ h
    have := List.find?_eq_none.1 h c hc
    simp [hasTypeAndName, ht, hn] at this

/-- **C140**: in every tree a program can make, `GetConfigBlock` finds each sub-block under its own
type and name. -/
theorem C140_found {b : Block} (hb : Built b) (c : Block) (hc : c ∈ b.subs) :
    b.getConfigBlock c.ty c.name = some c := by
  have hu := (C13_built_unique hb).elim.2.1
  unfold getConfigBlock
  revert hc hu
  generalize b.subs = l
  induction l with
  | nil => intro h; simp at h
  | cons x l ih =>
    intro hc hu
    rw [List.map_cons, List.nodup_cons] at hu
    rcases List.mem_cons.1 hc with rfl | hc
    · rw [List.find?_cons_of_pos (by simp [hasTypeAndName])]
    · rw [List.find?_cons_of_neg]
      · exact ih hc hu.2
      · intro h
        have hk := hasTypeAndName_iff.1 h
        refine hu.1 ?_
        rw [hk]
        exact List.mem_map_of_mem (f := Block.key) hc

/-- **C140**, types of sub-blocks: `HasSubBlocks(type)`, `GetAllSubBlocksOfType` and `HasSubBlocks()`
agree. -/
theorem C140_types (b : Block) :
    (∀ t c, c ∈ b.getAllSubBlocksOfType t ↔ c ∈ b.subs ∧ c.ty = t) ∧
    (∀ t, b.hasSubBlocksOfType t = true ↔ b.getAllSubBlocksOfType t ≠ []) ∧
    (b.hasSubBlocks = true ↔ ∃ t, b.hasSubBlocksOfType t = true) ∧
    (b.hasSubBlocks = true ↔ ∃ t n, b.hasSubBlock t n = true) := by
  have hs : b.hasSubBlocks = true ↔ ∃ c, c ∈ b.subs := by
    simp only [hasSubBlocks, decide_eq_true_eq]
    exact List.length_pos_iff_exists_mem
  have hm : ∀ t c, c ∈ b.getAllSubBlocksOfType t ↔ c ∈ b.subs ∧ c.ty = t := by
    simp [getAllSubBlocksOfType]
  have ht : ∀ t, b.hasSubBlocksOfType t = true ↔ ∃ c ∈ b.subs, c.ty = t := by
    simp [hasSubBlocksOfType]
  refine ⟨hm, ?_, ?_, ?_⟩
  · intro t
    rw [ht]
    constructor
    · rintro ⟨c, hc⟩ h
      have := (hm t c).2 hc
      rw [h] at this
      simp at this
    · intro h
      obtain ⟨c, hc⟩ := List.exists_mem_of_ne_nil _ h
      exact ⟨c, (hm t c).1 hc⟩
  · rw [hs]
    exact ⟨fun ⟨c, hc⟩ => ⟨c.ty, (ht _).2 ⟨c, hc, rfl⟩⟩, fun ⟨t, h⟩ => (ht t).1 h |>.imp fun c h => h.1⟩
  · rw [hs]
    exact ⟨fun ⟨c, hc⟩ => ⟨c.ty, c.name, (C140_sub_blocks b _ _).1.2 ⟨c, hc, rfl, rfl⟩⟩,
      fun ⟨t, n, h⟩ => ((C140_sub_blocks b t n).1.1 h).imp fun c h => h.1⟩

/-- **C140**, settings not read: `HasUntouchedSettings` and `GetUntouchedSettings` agree with the
marks of the listed settings; the order of the settings is kept. -/
theorem C140_untouched (b : Block) :
    (∀ s, s ∈ b.getUntouchedSettings ↔ s ∈ b.settings ∧ s.touched = false) ∧
    (b.hasUntouchedSettings = true ↔ b.getUntouchedSettings ≠ []) ∧
    b.getUntouchedSettings.Sublist b.settings := by
  have hm : ∀ s, s ∈ b.getUntouchedSettings ↔ s ∈ b.settings ∧ s.touched = false := by
    simp [getUntouchedSettings]
  refine ⟨hm, ?_, List.filter_sublist⟩
  simp only [hasUntouchedSettings, List.any_eq_true, Bool.not_eq_true']
  constructor
  · rintro ⟨s, hs⟩ h
    have := (hm s).2 hs
    rw [h] at this
    simp at this
  · intro h
    obtain ⟨s, hs⟩ := List.exists_mem_of_ne_nil _ h
    exact ⟨s, (hm s).1 hs⟩

/-- **C140**, `==`: it is an equivalence, blocks are equal exactly if type and name are, and no two
sub-blocks of a block that a program can make are equal. -/
theorem C140_equality :
    (∀ a b : Block, a.eqOp b = true ↔ a.ty = b.ty ∧ a.name = b.name) ∧
    (∀ a : Block, a.eqOp a = true) ∧ (∀ a b : Block, a.eqOp b = b.eqOp a) ∧
    (∀ a b c : Block, a.eqOp b = true → b.eqOp c = true → a.eqOp c = true) ∧
    (∀ b : Block, Built b → b.subs.Pairwise fun c d => c.eqOp d = false) := by
  have h : ∀ a b : Block, a.eqOp b = true ↔ a.ty = b.ty ∧ a.name = b.name := by
    simp [eqOp, hasTypeAndName]
  refine ⟨h, fun a => (h a a).2 ⟨rfl, rfl⟩, ?_, ?_, ?_⟩
  · intro a b
    rw [Bool.eq_iff_iff, h, h]
    exact ⟨fun x => ⟨x.1.symm, x.2.symm⟩, fun x => ⟨x.1.symm, x.2.symm⟩⟩
  · intro a b c x y
    have := (h a b).1 x; have := (h b c).1 y
    exact (h a c).2 ⟨by simp [*], by simp [*]⟩
  · intro b hb
    have hu := (C13_built_unique hb).elim.2.1
    rw [List.Nodup, List.pairwise_map] at hu
    refine hu.imp ?_
    intro c d hcd
    cases he : c.eqOp d with
    | false => rfl
    | true =>
      obtain ⟨e1, e2⟩ := (h c d).1 he
      exact absurd (Prod.ext e1 e2) hcd

/-- **C140**, copies: a copy is equal to the original, and answers all questions about its type, its
settings and their values, and its sub-blocks like the original; its sub-blocks are copies. -/
theorem C140_copy (b : Block) :
    b.copy.eqOp b = true ∧ b.copy.getSecondaryType = b.getSecondaryType ∧
    (∀ n, b.copy.hasSetting n = b.hasSetting n ∧ (b.copy.index n).1 = (b.index n).1) ∧
    (∀ t n, b.copy.hasSubBlock t n = b.hasSubBlock t n ∧
      b.copy.getConfigBlock t n = (b.getConfigBlock t n).map Block.copy) ∧
    (∀ t, b.copy.hasSubBlocksOfType t = b.hasSubBlocksOfType t) ∧
    b.copy.settings.map (fun s => (s.name, s.values)) = b.settings.map (fun s => (s.name, s.values)) := by
  have hk : ∀ (c : Block) t n, c.copy.hasTypeAndName t n = c.hasTypeAndName t n := by
    intro c t n
    cases c; rfl
  obtain ⟨t, n, s, sets, sub⟩ := b
  rw [Block.copy, copyList_eq]
  refine ⟨?_, ?_, ?_, ?_, ?_, ?_⟩
  · simp [eqOp, hasTypeAndName, Block.ty, Block.name]
  · simp only [getSecondaryType, Block.sec, Block.name]
    by_cases h : s = [] <;> simp [h]
  · intro m
    constructor
    · simp [hasSetting, Block.settings, List.any_map, Function.comp_def]
    · rw [index_eq_find, index_eq_find]
      simp only [Block.settings, List.find?_map, Option.map_map, Function.comp_def]
  · intro u m
    constructor
    · simp [hasSubBlock, Block.subs, List.any_map, Function.comp_def, hk]
    · simp only [getConfigBlock, Block.subs, List.find?_map, Function.comp_def, hk]
  · intro u
    have : ∀ c : Block, c.copy.ty = c.ty := by intro c; cases c; rfl
    simp [hasSubBlocksOfType, Block.subs, List.any_map, Function.comp_def, this]
  · simp [Block.settings, Function.comp_def]

/-- **C140**, copies forget what was read: all their settings count as not read. -/
theorem C140_copy_untouched (b : Block) :
    b.copy.getUntouchedSettings = b.copy.settings ∧
    (b.copy.hasUntouchedSettings = true ↔ b.settings ≠ []) := by
  obtain ⟨t, n, s, sets, sub⟩ := b
  rw [Block.copy]
  constructor
  · simp [getUntouchedSettings, Block.settings]
  · cases sets <;> simp [hasUntouchedSettings, Block.settings]

/-- A block with the setting `a = 1` that has been read. -/
def readBlock : Block := ((Block.fresh 0 ['b'] []).addSetting ⟨['a'], [['1']], false⟩).index ['a'] |>.2

theorem readBlock_built : Built readBlock :=
  .getSetting (.addSetting (.fresh 0 ['b'] []) [] ⟨['a'], [['1']], false⟩) [] ['a']

/-- **C140** as stated fails for `==`: equal blocks can have different settings. -/
theorem C140_refuted_equality : ¬ ∀ a b : Block, Built a → Built b → a.eqOp b = true →
    ∀ n, a.hasSetting n = b.hasSetting n := by
  intro h
  have := h _ _ readBlock_built (.fresh 0 ['b'] []) (by decide) ['a']
  revert this
  decide

/-- **C140** as stated fails for copies: the original has no settings left to be read, the copy does. -/
theorem C140_refuted_copy : ¬ ∀ b : Block, Built b →
    b.copy.hasUntouchedSettings = b.hasUntouchedSettings := by
  intro h
  have := h _ readBlock_built
  revert this
  decide

/-- **C140** as stated fails for settings without values: the setting exists, but `operator[]`
throws, and not a `SOFTLibException`; the setting counts as read. -/
theorem C140_refuted_no_values : ¬ ∀ (b : Block) (n : Str), Built b → b.hasSetting n = true →
    ∃ v, (b.index n).1 = .value v := by
  intro h
  obtain ⟨v, hv⟩ := h ((Block.fresh 0 ['b'] []).addSetting ⟨['a'], [], false⟩) ['a']
    (.addSetting (.fresh 0 ['b'] []) [] ⟨['a'], [], false⟩) (by decide)
  have : (((Block.fresh 0 ['b'] []).addSetting ⟨['a'], [], false⟩).index ['a']).1 = .outOfRange := by decide
  rw [this] at hv
  cases hv

example : (readBlock.index ['a']).1 = .value ['1'] ∧ (readBlock.index ['c']).1 = .missing ∧
    readBlock.hasUntouchedSettings = false ∧ readBlock.copy.hasUntouchedSettings = true := by decide

example : ∀ ws, BlockOp.add ['a'] ws ∉ [BlockOp.add ['c'] [['2']], .get ['a'], .has ['a']] := by simp

end Softlib
