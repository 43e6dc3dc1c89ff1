/-
Properties C13 and C14 for every tree a program can make: all of them are free of duplicates,
so that the hypothesis of the theorems in BlockProps is met; and repeated merging.
-/
import Verif.Config.BlockProps
import Verif.Config.InterpProps

namespace Softlib

open Softlib.Config Softlib.Config.Block

/-- The configuration trees a program can make: by loading a text, or block by block.  Blocks
inside of a tree are reached through their indices; `GetSetting` marks a setting as read. -/
inductive Built : Block → Prop where
  /-- the constructor -/
  | fresh (t : Nat) (n s : Str) : Built (Block.fresh t n s)
  /-- a text that is loaded -/
  | loaded {reg : Registry} {err : Bool} {ts : List Tok} {root : Block} {e : Bool}
      (h : interpret reg err ts = .ok root e) : Built root
  /-- `AddSetting` of some block of the tree -/
  | addSetting {b : Block} (h : Built b) (p : List Nat) (x : Config.Setting) :
      Built (modifyAt p (fun b => b.addSetting x) b)
  /-- `GetSetting` of some block of the tree -/
  | getSetting {b : Block} (h : Built b) (p : List Nat) (n : Str) :
      Built (modifyAt p (fun b => (b.getSetting n).2) b)
  /-- `AddSubBlock(type, name, secondary type)` of some block of the tree -/
  | addSubBlock {b : Block} (h : Built b) (p : List Nat) (t : Nat) (n s : Str) :
      Built (modifyAt p (fun b => (b.addSubBlock t n s).1) b)
  /-- `AddSubBlock(block)` of some block of the tree -/
  | addExisting {b c : Block} (h : Built b) (hc : Built c) (p : List Nat) :
      Built (modifyAt p (fun b => b.addExisting c) b)
  /-- the copy constructor -/
  | copy {b : Block} (h : Built b) : Built b.copy
  /-- a block of the tree on its own -/
  | sub {b c : Block} (h : Built b) (hc : c ∈ b.subs) : Built c
  /-- `Merge` into some block of the tree -/
  | merge {b c : Block} (h : Built b) (hc : Built c) (an : Bool) (p : List Nat) :
      Built (modifyAt p (fun b => (Block.merge an c b).1) b)

theorem uniq_getSetting {b : Block} (h : b.Uniq) (n : Str) : (b.getSetting n).2.Uniq := by
  obtain ⟨h1, h2, h3⟩ := h.elim
  unfold getSetting
  split
  · exact h
  · refine .mk ?_ h2 h3
    rw [map_modifyFirst (g := Setting.name) (by intro x; rfl)]
    exact h1

theorem key_getSetting (b : Block) (n : Str) : (b.getSetting n).2.key = b.key := by
  unfold getSetting; split <;> rfl

theorem uniq_addExisting {b c : Block} (h : b.Uniq) (hc : c.Uniq) : (b.addExisting c).Uniq := by
  obtain ⟨h1, h2, h3⟩ := h.elim
  unfold addExisting
  split
  · exact h
  · rename_i hn
    refine .mk h1 ?_ ?_
    · change (List.map key _).Nodup
      rw [List.map_append, List.nodup_append]
      refine ⟨h2, by simp, ?_⟩
      intro a ha b' hb' hab
      subst hab
      simp only [List.map_cons, List.map_nil, List.mem_singleton] at hb'
      subst hb'
      obtain ⟨x, hx, hxn⟩ := List.mem_map.1 ha
      unfold subIdx? at hn
      rw [List.findIdx?_eq_none_iff] at hn
      have := hn x hx
      rw [(hasTypeAndName_iff (n := c.name) (t := c.ty)).2 hxn] at this
      cases this
    · intro d hd
      rcases List.mem_append.1 hd with hd | hd
      · exact h3 d hd
      · simp only [List.mem_singleton] at hd
        subst hd
        exact hc

theorem uniq_copy {b : Block} : b.Uniq → b.copy.Uniq := by
  induction b using Block.ind with
  | h t n s sets sub ih =>
    intro h
    obtain ⟨h1, h2, h3⟩ := h.elim
    rw [Block.copy, copyList_eq]
    refine .mk ?_ ?_ ?_
    · rw [List.map_map]; exact h1
    · change (List.map key _).Nodup
      rw [List.map_map]
      have : (key ∘ Block.copy) = key := funext copy_key
      rw [this]; exact h2
    · intro c hc
      obtain ⟨d, hd, rfl⟩ := List.mem_map.1 hc
      exact ih d hd (h3 d hd)

theorem uniq_mergeSettings (an : Bool) (ss : List Config.Setting) : ∀ (b : Block) (u : Option (List Str)),
    b.Uniq → (mergeSettings an ss (b, u)).1.Uniq := by
  induction ss with
  | nil => intro b u h; exact h
  | cons x ss ih =>
    intro b u h
    rw [mergeSettings]
    split
    · apply ih
      obtain ⟨h1, h2, h3⟩ := h.elim
      refine .mk ?_ h2 h3
      rw [map_modifyFirst (g := Setting.name) (by intro x; rfl)]
      exact h1
    · split
      · exact ih _ _ (uniq_addSetting h x)
      · exact ih _ _ h

theorem uniq_mergeSubs (an : Bool) (cs : List Block)
    (hm : ∀ c ∈ cs, ∀ b : Block, b.Uniq → (Block.merge an c b).1.Uniq) (hc : ∀ c ∈ cs, c.Uniq) :
    ∀ (b : Block) (u : Option (List Str)), b.Uniq → (mergeSubs an cs (b, u)).1.Uniq := by
  induction cs with
  | nil => intro b u h; exact h
  | cons c cs ih =>
    intro b u h
    have ih' := ih (fun d hd => hm d (List.mem_cons_of_mem _ hd)) (fun d hd => hc d (List.mem_cons_of_mem _ hd))
    rw [mergeSubs]
    split
    · rename_i i hi
      apply ih'
      obtain ⟨h1, h2, h3⟩ := h.elim
      obtain ⟨-, -, hg⟩ := subAt_of_subIdx hi
      have hmem : b.subAt i ∈ b.subs := List.mem_of_getElem? hg
      refine .mk h1 ?_ ?_
      · change (List.map key _).Nodup
        rw [List.map_set, merge_key, ← List.map_set]
        have : b.subs.set i (b.subAt i) = b.subs := by
          apply List.ext_getElem?
          intro j
          by_cases hj : i = j
          · subst hj
            rw [hg]
            obtain ⟨hi', he⟩ := List.getElem?_eq_some_iff.1 hg
            simp [hi']
          · rw [List.getElem?_set_ne hj]
        rw [this]; exact h2
      · intro d hd
        rcases List.mem_or_eq_of_mem_set hd with hd | rfl
        · exact h3 d hd
        · exact hm c (by simp) _ (h3 _ hmem)
    · split
      · exact ih' _ _ (uniq_addExisting h (uniq_copy (hc c (by simp))))
      · exact ih' _ _ h

theorem uniq_merge (an : Bool) {c : Block} : c.Uniq → ∀ b : Block, b.Uniq → (Block.merge an c b).1.Uniq := by
  induction c using Block.ind with
  | h t n s sets sub ih =>
    intro hc b hb
    obtain ⟨-, -, h3⟩ := hc.elim
    rw [Block.merge]
    have := uniq_mergeSettings an sets b none hb
    cases hr : mergeSettings an sets (b, none) with
    | mk b' u' =>
      rw [hr] at this
      exact uniq_mergeSubs an sub (fun c hc b hb => ih c hc (h3 c hc) b hb) h3 b' u' this

/-- **C13**, **C14** Every tree a program can make is free of duplicates: no block has two settings
of one name, or two sub-blocks of one type and name. -/
theorem C13_built_unique {b : Block} (h : Built b) : b.Uniq := by
  induction h with
  | fresh t n s => exact uniq_fresh t n s
  | loaded h => exact C09_no_duplicates _ _ _ _ _ h
  | addSetting _ p x ih => exact uniq_modifyAt (fun b => key_addSetting b x) (fun b hb => uniq_addSetting hb x) p ih
  | getSetting _ p n ih => exact uniq_modifyAt (fun b => key_getSetting b n) (fun b hb => uniq_getSetting hb n) p ih
  | addSubBlock _ p t n s ih =>
    exact uniq_modifyAt (fun b => key_addSubBlock b t n s) (fun b hb => uniq_addSubBlock hb t n s) p ih
  | addExisting _ _ p ih ihc =>
    exact uniq_modifyAt (fun b => addExisting_key b _) (fun b hb => uniq_addExisting hb ihc) p ih
  | copy _ ih => exact uniq_copy ih
  | sub _ hc ih => exact ih.elim.2.2 _ hc
  | merge _ _ an p ih ihc =>
    exact uniq_modifyAt (fun b => merge_key an _ b) (fun b hb => uniq_merge an ihc b hb) p ih

/-- **C13** for all trees a program can make, without further hypotheses: nothing is added or
removed, common settings get the values of the source, the unknown names are reported. -/
theorem C13_all_trees {c : Block} (hc : Built c) (b : Block) :
    eraseValues (Block.merge false c b).1 = eraseValues b ∧
    (∀ (p : List (Nat × Str)) (n : Str), (Block.merge false c b).1.valuesAt p n =
      match b.valuesAt p n, c.valuesAt p n with
      | none, _ => none
      | some _, some w => some w
      | some v, none => some v) ∧
    (∀ m, m ∈ ((Block.merge false c b).2.getD []) ↔
      (∃ p, (b.find p).isSome ∧ (c.valuesAt p m).isSome ∧ b.valuesAt p m = none) ∨
      (∃ p t, (b.find p).isSome ∧ (c.find (p ++ [(t, m)])).isSome ∧ b.find (p ++ [(t, m)]) = none)) ∧
    ((Block.merge false c b).2 = none ↔ ((Block.merge false c b).2.getD []) = []) := by
  refine ⟨C13_shape_unchanged c b, fun p n => ?_, C13_reported_names c b (C13_built_unique hc),
    C13_null_iff_all_known c b⟩
  rw [C13_values c b (C13_built_unique hc)]
  cases b.valuesAt p n <;> cases c.valuesAt p n <;> rfl

/-- **C14** for all trees a program can make, without further hypotheses. -/
theorem C14_all_trees {c : Block} (hc : Built c) (b : Block) :
    (Block.merge true c b).2 = none ∧
    (∀ (p : List (Nat × Str)) (n : Str), (Block.merge true c b).1.valuesAt p n =
      match c.valuesAt p n with
      | some w => some w
      | none => b.valuesAt p n) ∧
    ∀ p, ((Block.merge true c b).1.find p).isSome = ((c.find p).isSome || (b.find p).isSome) :=
  ⟨(C14_right_biased_union c b (C13_built_unique hc)).1, (C14_right_biased_union c b (C13_built_unique hc)).2,
    C14_blocks_union c b (C13_built_unique hc)⟩

/-- Merge several trees one after the other. -/
def mergeAll (b : Block) (cs : List Block) : Block := cs.foldl (fun b c => (Block.merge true c b).1) b

/-- **C14** for several configurations merged one after the other: each setting has the value of
the last configuration that defines it. -/
theorem C14_last_wins {cs : List Block} (hcs : ∀ c ∈ cs, Built c) (b : Block) (p : List (Nat × Str)) (n : Str) :
    (mergeAll b cs).valuesAt p n = ((b :: cs).reverse.findSome? fun c => c.valuesAt p n) := by
  induction cs generalizing b with
  | nil => simp [mergeAll]
  | cons c cs ih =>
    have := ih (fun d hd => hcs d (List.mem_cons_of_mem _ hd)) (Block.merge true c b).1
    rw [show mergeAll b (c :: cs) = mergeAll (Block.merge true c b).1 cs from rfl, this]
    simp only [List.reverse_cons, List.findSome?_append, List.findSome?_cons, List.findSome?_nil]
    rw [(C14_all_trees (hcs c (by simp)) b).2.1]
    generalize List.findSome? (fun c => c.valuesAt p n) cs.reverse = x
    cases x <;> cases c.valuesAt p n <;> cases b.valuesAt p n <;> rfl

example : Built exTarget := by
  have h : exTarget = modifyAt [0] (fun b => b.addSetting ⟨['u'], [['2']], false⟩)
      (modifyAt [] (fun b => (b.addSubBlock 1 ['x'] []).1)
        (modifyAt [] (fun b => b.addSetting ⟨['a'], [['1']], false⟩) (fresh 0 "<root>".toList []))) := by
    rfl
  rw [h]
  exact .addSetting (.addSubBlock (.addSetting (.fresh _ _ _) _ _) _ _ _ _) _ _

end Softlib
