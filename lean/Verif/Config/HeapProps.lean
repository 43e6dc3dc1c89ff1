/-
Properties C15 (ownership after merging) and C16 (copies).
-/
import Verif.Config.HeapLemmas

namespace Softlib

open Softlib.Config Softlib.Config.HBlock

/-! ### C15 -/

/-- Destroying the merged target and the source: all their objects are live before. -/
def destroyBoth (target source : HBlock) : Option (List Nat) :=
  deleteAll (target.deleted ++ source.deleted) (target.deleted ++ source.deleted)

/-- C15 for `allowNew = false`: destroying both frees every object once and leaves none. -/
theorem C15_no_new_settings_partial (c b : HBlock) (st : HSt) (h : (b.deleted ++ c.deleted).Nodup) :
    destroyBoth (HBlock.merge false c b st).1 c = some [] := by
  unfold destroyBoth
  rw [(merge_false c b st).1]
  exact (deleteAll_self _).1 h

/-- C15 for `allowNew = true`, exactly: destroying both is a double free iff some existing
block of the target got a setting it did not have; otherwise each object is freed once. -/
theorem C15_double_free_iff_partial (c b : HBlock) (st : HSt) (hu : (c.view st.heap).Uniq)
    (h : (b.deleted ++ c.deleted).Nodup) (hlt : ∀ a ∈ b.deleted ++ c.deleted, a < st.next) :
    let both := destroyBoth (HBlock.merge true c b st).1 c
    let new := ∃ p n, ((b.view st.heap).find p).isSome ∧ ((c.view st.heap).valuesAt p n).isSome ∧
      (b.view st.heap).valuesAt p n = none
    (new → both = none) ∧ (¬ new → both = some []) := by
  have hu' := Uniq.of_view hu
  obtain ⟨-, fr, f1, f2, f3⟩ := merge_spec c hu' b st (fun a ha => hlt a (by simp [ha]))
  have key := shared_iff st.heap c b hu'
  have hsub := shared_sub c b
  simp only [destroyBoth]
  rw [← key]
  constructor
  · intro hne
    apply (deleteAll_self _).2
    intro hnd
    obtain ⟨x, hx⟩ := List.exists_mem_of_ne_nil _ hne
    rw [List.nodup_append] at hnd
    exact hnd.2.2 x (f3.mem_iff.2 (by simp [hx])) x (hsub x hx) rfl
  · intro hne
    have he : shared c b = [] := by simpa using hne
    apply (deleteAll_self _).1
    rw [he, List.nil_append] at f3
    rw [List.nodup_append] at h ⊢
    obtain ⟨h1, h2, h3⟩ := h
    have hfr : ∀ a ∈ b.deleted ++ c.deleted, a ∉ fr := by
      intro a ha hf
      have := f2 a hf
      have := hlt a ha
      omega
    refine ⟨?_, h2, ?_⟩
    · rw [f3.nodup_iff, List.nodup_append]
      refine ⟨h1, f1, ?_⟩
      rintro a ha x hx rfl
      exact hfr a (by simp [ha]) hx
    · rintro a ha x hx rfl
      rw [f3.mem_iff, List.mem_append] at ha
      rcases ha with ha | ha
      · exact h3 a ha a hx rfl
      · exact hfr a (by simp [hx]) ha

/-- Target `a = 1;` (block 0, setting 1) and source `b = 2;` (block 2, setting 3). -/
def exHeap : Heap := fun a => if a = 1 then ([['1']], false) else ([['2']], false)
def exB : HBlock := .mk 0 none 0 "<root>".toList [] [(1, ['a'])] []
def exC : HBlock := .mk 2 none 0 "<root>".toList [] [(3, ['b'])] []

/-- C15 as stated fails: merging `b = 2;` into `a = 1;` and destroying both deletes the
setting `b` twice. -/
theorem C15_refuted : ¬ ∀ (an : Bool) (c b : HBlock) (st : HSt), (c.view st.heap).Uniq →
    (b.deleted ++ c.deleted).Nodup → (∀ a ∈ b.deleted ++ c.deleted, a < st.next) →
    destroyBoth (HBlock.merge an c b st).1 c = some [] := by
  intro h
  have := h true exC exB ⟨exHeap, 4⟩
    (by simp only [exC, HBlock.view, viewList]; exact .mk (by decide) (by decide) (by simp))
    (by decide) (by decide)
  revert this
  simp only [exC, exB, destroyBoth, HBlock.merge]
  decide

/-- C15, a consequence of the sharing: merging further settings into the target changes the
values seen through the earlier source. -/
theorem C15_source_changes_through_target :
    let st : HSt := ⟨exHeap, 6⟩
    let r := HBlock.merge true exC exB st
    let d : HBlock := .mk 4 none 0 "<root>".toList [] [(5, ['b'])] []
    let q := HBlock.merge true d r.1 ⟨r.2.heap.put 5 ([['9']], false), r.2.next⟩
    (exC.view r.2.heap).valuesAt [] ['b'] = some [['2']] ∧
    (exC.view q.2.heap).valuesAt [] ['b'] = some [['9']] := by
  simp only [exC, exB, HBlock.merge]
  decide

/-- The hypotheses of the positive statements are met by a merge that does overwrite and
does add a block: target `a = 1;`, source `a = 2; t x { u = 3; }`. -/
example :
    let c : HBlock := .mk 2 none 0 "<root>".toList [] [(3, ['a'])]
      [.mk 4 (some 2) 1 ['x'] [] [(5, ['u'])] []]
    destroyBoth (HBlock.merge true c exB ⟨exHeap, 6⟩).1 c = some [] ∧
    (HBlock.merge true c exB ⟨exHeap, 6⟩).1.deleted = [1, 7, 6, 0] := by
  simp only [exB, destroyBoth, HBlock.merge]
  decide

/-! ### C16 -/

/-- Every sub-block's parent is the block that contains it. -/
inductive ParentsOk : HBlock → Prop
  | mk {a p t n s sets sub} : (∀ c ∈ sub, c.parent = some a) → (∀ c ∈ sub, ParentsOk c) →
      ParentsOk (HBlock.mk a p t n s sets sub)

/-- C16, contents: the copy has the same blocks, the same effective secondary types and the
same values as the original, shares no object with it, and leaves the original alone. -/
theorem C16_copy_contents_partial (b : HBlock) (st : HSt) (hlt : ∀ a ∈ b.deleted, a < st.next) :
    let r := HBlock.copy b st
    (∀ p n, (r.1.view r.2.heap).valuesAt p n = (b.view st.heap).valuesAt p n) ∧
    (∀ p, ((r.1.view r.2.heap).find p).map Block.getSecondaryType =
      ((b.view st.heap).find p).map Block.getSecondaryType) ∧
    (b.view r.2.heap = b.view st.heap) ∧
    (r.1.deleted ++ b.deleted).Nodup = b.deleted.Nodup := by
  obtain ⟨h1, h2, h3, h4, h5⟩ := copy_spec b st hlt
  refine ⟨?_, ?_, ?_, ?_⟩
  · intro p n
    rw [h1, Block.valuesAt_copy]
  · intro p
    rw [h1]
    generalize b.view st.heap = v
    induction p generalizing v with
    | nil =>
      cases v with
      | mk t n s sets sub =>
        simp only [Block.find, Option.map_some, Block.copy, Block.getSecondaryType, Block.sec,
          Block.name]
        congr 1
        by_cases hs : s = []
        · by_cases hn : n = [] <;> simp [hs, hn]
        · simp [hs]
    | cons k p ih =>
      rw [Block.find_cons', Block.find_cons', Block.sub?_copy]
      cases v.sub? k with
      | none => rfl
      | some d => exact ih d
  · apply view_congr
    intro a ha
    exact h2 a (hlt a ha)
  · rw [List.nodup_append]
    simp only [eq_iff_iff]
    constructor
    · exact fun h => h.2.1
    · intro h
      refine ⟨h5, h, ?_⟩
      rintro a ha x hx rfl
      have := h4 a ha
      have := hlt a hx
      omega

theorem copyList_parents (l : List HBlock) (st : HSt) :
    (HBlock.copyList l st).1.map HBlock.parent = l.map HBlock.parent := by
  induction l generalizing st with
  | nil => rfl
  | cons b l ih =>
    simp only [HBlock.copyList, List.map_cons]
    rw [ih]
    congr 1
    cases b; rfl

/-- C16, the failure in full: whenever a consistent tree has a sub-block, each sub-block of
its copy names the *original* as parent, so the copy is not consistent. -/
theorem C16_copied_parents_point_to_original (b : HBlock) (st : HSt) (hb : ParentsOk b)
    (hlt : ∀ a ∈ b.deleted, a < st.next) :
    (∀ c ∈ (HBlock.copy b st).1.subs, c.parent = some b.addr ∧ b.addr ≠ (HBlock.copy b st).1.addr) ∧
    (b.subs ≠ [] → ¬ ParentsOk (HBlock.copy b st).1) := by
  obtain ⟨a, p, t, n, s, sets, sub⟩ := b
  cases hb with
  | mk hp _ =>
  have hne : a < st.next := hlt a (by simp [deleted])
  have hall : ∀ c ∈ (HBlock.copy (.mk a p t n s sets sub) st).1.subs, c.parent = some a := by
    intro c hc
    have hm : c.parent ∈ (HBlock.copyList sub ⟨st.heap, st.next + 1⟩).1.map HBlock.parent :=
      List.mem_map.2 ⟨c, hc, rfl⟩
    rw [copyList_parents] at hm
    obtain ⟨d, hd, e⟩ := List.mem_map.1 hm
    rw [← e, hp d hd]
  have haddr : (HBlock.copy (.mk a p t n s sets sub) st).1.addr = st.next := rfl
  refine ⟨fun c hc => ⟨hall c hc, ?_⟩, ?_⟩
  · rw [haddr]; simp only [HBlock.addr]; omega
  · intro hs hok
    have hlen : (HBlock.copy (.mk a p t n s sets sub) st).1.subs.length = sub.length := by
      have := congrArg List.length (copyList_parents sub ⟨st.heap, st.next + 1⟩)
      simpa [HBlock.copy, HBlock.subs] using this
    generalize HBlock.copy (.mk a p t n s sets sub) st = r at *
    obtain ⟨⟨a', p', t', n', s', sets', sub'⟩, st'⟩ := r
    cases hok with
    | mk hok _ =>
    simp only [HBlock.subs, HBlock.addr] at *
    cases sub' with
    | nil =>
      simp only [List.length_nil] at hlen
      exact hs (List.length_eq_zero_iff.1 hlen.symm)
    | cons c l =>
      have e1 := hall c (by simp)
      have e2 := hok c (by simp)
      rw [e1] at e2
      injection e2 with e2
      omega

/-- C16 as stated fails. -/
theorem C16_refuted : ¬ ∀ (b : HBlock) (st : HSt), ParentsOk b → (∀ a ∈ b.deleted, a < st.next) →
    ParentsOk (HBlock.copy b st).1 := by
  intro h
  let b : HBlock := .mk 0 none 0 [] [] [] [.mk 1 (some 0) 1 ['x'] [] [] []]
  have hb : ParentsOk b := by
    refine .mk ?_ ?_
    all_goals
      intro c hc
      simp only [List.mem_cons, List.not_mem_nil, or_false] at hc
      subst hc
    · rfl
    · exact .mk (by simp) (by simp)
  exact (C16_copied_parents_point_to_original b ⟨exHeap, 2⟩ hb (by decide)).2 (by simp [b, HBlock.subs])
    (h b ⟨exHeap, 2⟩ hb (by decide))

example : ((HBlock.copy (.mk 0 none 0 ['r'] [] [(2, ['a'])] [.mk 1 (some 0) 1 ['x'] [] [] []])
    ⟨exHeap, 3⟩).1).deleted = [5, 4, 3] := by decide

end Softlib
