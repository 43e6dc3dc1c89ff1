/-
Lemmas about the pointer model of configuration trees.
-/
import Verif.Config.HeapModel
import Verif.Config.MergeLemmas

namespace Softlib.Config
namespace HBlock

theorem ind {P : HBlock → Prop}
    (h : ∀ a p t n s sets sub, (∀ c ∈ sub, P c) → P (mk a p t n s sets sub)) : ∀ b, P b
  | mk a p t n s sets sub => h a p t n s sets sub (go sub)
where
  go : ∀ l : List HBlock, ∀ c ∈ l, P c
    | [], c, hc => by cases hc
    | b :: bs, c, hc => by
      rcases List.mem_cons.1 hc with e | hc
      · rw [e]; exact ind h b
      · exact go bs c hc

theorem viewList_eq (h : Heap) (l : List HBlock) : viewList h l = l.map (view h) := by
  induction l with
  | nil => rfl
  | cons b l ih => simp [viewList, ih]

theorem mem_deletedList {l : List HBlock} {a : Nat} : a ∈ deletedList l ↔ ∃ b ∈ l, a ∈ b.deleted := by
  induction l with
  | nil => simp [deletedList]
  | cons b l ih => simp [deletedList, ih]

theorem deletedList_append (l m : List HBlock) :
    deletedList (l ++ m) = deletedList l ++ deletedList m := by
  induction l with
  | nil => rfl
  | cons b l ih => simp [deletedList, ih]

theorem view_congr {h h' : Heap} (b : HBlock) (e : ∀ a ∈ b.deleted, h a = h' a) :
    view h b = view h' b := by
  induction b using ind with
  | h a p t n s sets sub ih =>
    simp only [deleted, List.mem_append] at e
    simp only [view, viewList_eq]
    congr 1
    · apply List.map_congr_left
      intro x hx
      rw [e x.1 (.inl (.inl (List.mem_map.2 ⟨x, hx, rfl⟩)))]
    · apply List.map_congr_left
      intro c hc
      exact ih c hc (fun a ha => e a (.inl (.inr (mem_deletedList.2 ⟨c, hc, ha⟩))))

/-! ### deletion -/

theorem deleteAll_iff (l live : List Nat) :
    (deleteAll l live).isSome ↔ l.Nodup ∧ ∀ a ∈ l, a ∈ live := by
  induction l generalizing live with
  | nil => simp [deleteAll]
  | cons a l ih =>
    simp only [deleteAll]
    split
    · rename_i hl
      rw [ih]
      simp only [List.nodup_cons, List.mem_filter, List.mem_cons, bne_iff_ne, ne_eq]
      constructor
      · rintro ⟨h1, h2⟩
        refine ⟨⟨fun ha => (h2 a ha).2 rfl, h1⟩, ?_⟩
        rintro x (rfl | hx)
        · exact hl
        · exact (h2 x hx).1
      · rintro ⟨⟨h1, h2⟩, h3⟩
        refine ⟨h2, fun x hx => ⟨h3 x (.inr hx), ?_⟩⟩
        rintro rfl
        exact h1 hx
    · rename_i hl
      simp only [Option.isSome_none, Bool.false_eq_true, List.mem_cons, false_iff, not_and]
      intro _ h
      exact hl (h a (.inl rfl))

theorem deleteAll_rest (l live r : List Nat) (h : deleteAll l live = some r) :
    ∀ a, a ∈ r ↔ a ∈ live ∧ a ∉ l := by
  induction l generalizing live with
  | nil =>
    simp only [deleteAll, Option.some.injEq] at h
    subst h; simp
  | cons b l ih =>
    simp only [deleteAll] at h
    split at h
    · intro a
      rw [ih _ h a]
      simp only [List.mem_filter, bne_iff_ne, ne_eq, List.mem_cons, not_or, and_assoc]
    · cases h

/-- Deleting all live objects: either undefined behaviour or nothing is left. -/
theorem deleteAll_self (l : List Nat) :
    (l.Nodup → deleteAll l l = some []) ∧ (¬ l.Nodup → deleteAll l l = none) := by
  constructor
  · intro h
    have := (deleteAll_iff l l).2 ⟨h, fun _ h => h⟩
    obtain ⟨r, hr⟩ := Option.isSome_iff_exists.1 this
    have hm := deleteAll_rest l l r hr
    rw [hr]
    congr 1
    rw [List.eq_nil_iff_forall_not_mem]
    intro a ha
    have := (hm a).1 ha
    exact this.2 this.1
  · intro h
    cases hd : deleteAll l l with
    | none => rfl
    | some r =>
      exact absurd ((deleteAll_iff l l).1 (by rw [hd]; rfl)).1 h

/-! ### copying -/

theorem copySets_spec (ss : List (Nat × Str)) (st : HSt) (hb : ∀ s ∈ ss, s.1 < st.next) :
    let r := copySets ss st
    (r.1.map (fun x => (⟨x.2, (r.2.heap x.1).1, (r.2.heap x.1).2⟩ : Setting)) =
      ss.map (fun x => ⟨x.2, (st.heap x.1).1, false⟩)) ∧
    (∀ a < st.next, r.2.heap a = st.heap a) ∧
    st.next ≤ r.2.next ∧ (∀ a ∈ r.1.map Prod.fst, st.next ≤ a ∧ a < r.2.next) ∧
    (r.1.map Prod.fst).Nodup := by
  induction ss generalizing st with
  | nil => simp [copySets]
  | cons s ss ih =>
    have hb' : ∀ s' ∈ ss, s'.1 <
        (⟨st.heap.put st.next ((st.heap s.1).1, false), st.next + 1⟩ : HSt).next := by
      intro s' hs'
      have := hb s' (by simp [hs'])
      simp only
      omega
    obtain ⟨h1, h2, h3, h4, h5⟩ := ih _ hb'
    simp only [copySets]
    simp only at h1 h2 h3 h4 h5
    generalize copySets ss ⟨st.heap.put st.next ((st.heap s.1).1, false), st.next + 1⟩ = r at *
    refine ⟨?_, ?_, by omega, ?_, ?_⟩
    · simp only [List.map_cons]
      rw [h1, h2 st.next (by omega)]
      simp only [Heap.put, if_true]
      congr 1
      apply List.map_congr_left
      intro x hx
      have : x.1 ≠ st.next := by
        have := hb x (by simp [hx])
        omega
      simp [this]
    · intro a ha
      rw [h2 a (by omega)]
      have : a ≠ st.next := by omega
      simp [Heap.put, this]
    · intro a ha
      simp only [List.map_cons, List.mem_cons] at ha
      rcases ha with rfl | ha
      · exact ⟨by omega, by omega⟩
      · have := h4 a ha
        omega
    · simp only [List.map_cons, List.nodup_cons]
      refine ⟨?_, h5⟩
      intro hm
      have := h4 _ hm
      omega

/-- What copying achieves. -/
def CopySpec (b : HBlock) : Prop := ∀ st : HSt, (∀ a ∈ b.deleted, a < st.next) →
  view (copy b st).2.heap (copy b st).1 = (view st.heap b).copy ∧
  (∀ a < st.next, (copy b st).2.heap a = st.heap a) ∧ st.next ≤ (copy b st).2.next ∧
  (∀ a ∈ (copy b st).1.deleted, st.next ≤ a ∧ a < (copy b st).2.next) ∧
  (copy b st).1.deleted.Nodup

theorem copyList_spec (l : List HBlock) (hl : ∀ b ∈ l, CopySpec b) (st : HSt)
    (hb : ∀ a ∈ deletedList l, a < st.next) :
    viewList (copyList l st).2.heap (copyList l st).1 = Block.copyList (viewList st.heap l) ∧
    (∀ a < st.next, (copyList l st).2.heap a = st.heap a) ∧ st.next ≤ (copyList l st).2.next ∧
    (∀ a ∈ deletedList (copyList l st).1, st.next ≤ a ∧ a < (copyList l st).2.next) ∧
    (deletedList (copyList l st).1).Nodup := by
  induction l generalizing st with
  | nil => simp [copyList, viewList, deletedList, Block.copyList]
  | cons b l ih =>
    simp only [deletedList, List.mem_append] at hb
    obtain ⟨b1, b2, b3, b4, b5⟩ := hl b (by simp) st (fun a ha => hb a (.inl ha))
    obtain ⟨l1, l2, l3, l4, l5⟩ := ih (fun x hx => hl x (by simp [hx])) (copy b st).2
      (fun a ha => by have := hb a (.inr ha); omega)
    simp only [copyList]
    generalize copy b st = r at *
    generalize copyList l r.2 = q at *
    refine ⟨?_, ?_, by omega, ?_, ?_⟩
    · simp only [viewList, Block.copyList]
      rw [l1, ← b1]
      congr 1
      · apply view_congr
        intro a ha
        exact l2 a (b4 a ha).2
      · congr 1
        rw [viewList_eq, viewList_eq]
        apply List.map_congr_left
        intro x hx
        apply view_congr
        intro a ha
        exact b2 a (hb a (.inr (mem_deletedList.2 ⟨x, hx, ha⟩)))
    · intro a ha
      rw [l2 a (by omega), b2 a ha]
    · intro a ha
      simp only [deletedList, List.mem_append] at ha
      rcases ha with ha | ha
      · have := b4 a ha; omega
      · have := l4 a ha; omega
    · simp only [deletedList]
      rw [List.nodup_append]
      refine ⟨b5, l5, ?_⟩
      intro a ha c hc e
      subst e
      have := b4 a ha
      have := l4 a hc
      omega

theorem copy_spec (b : HBlock) : CopySpec b := by
  induction b using ind with
  | h a p t n s sets sub ih =>
    intro st hb
    simp only [deleted, List.mem_append] at hb
    obtain ⟨l1, l2, l3, l4, l5⟩ := copyList_spec sub ih ⟨st.heap, st.next + 1⟩
      (fun a ha => by have := hb a (.inl (.inr ha)); simp only; omega)
    simp only [copy]
    simp only at l1 l2 l3 l4 l5
    generalize copyList sub ⟨st.heap, st.next + 1⟩ = r at *
    have hs : ∀ x ∈ sets, x.1 < r.2.next := by
      intro x hx
      have := hb x.1 (.inl (.inl (List.mem_map.2 ⟨x, hx, rfl⟩)))
      omega
    obtain ⟨s1, s2, s3, s4, s5⟩ := copySets_spec sets r.2 hs
    generalize copySets sets r.2 = q at *
    refine ⟨?_, ?_, by omega, ?_, ?_⟩
    · simp only [view, Block.copy, List.map_map]
      rw [s1, ← l1]
      congr 1
      · apply List.map_congr_left
        intro x hx
        simp only [Function.comp]
        rw [l2]
        have := hb x.1 (.inl (.inl (List.mem_map.2 ⟨x, hx, rfl⟩)))
        omega
      · rw [viewList_eq, viewList_eq]
        apply List.map_congr_left
        intro x hx
        apply view_congr
        intro a ha
        exact s2 a (l4 a (mem_deletedList.2 ⟨x, hx, ha⟩)).2
    · intro a ha
      rw [s2 a (by omega), l2 a (by omega)]
    · intro a ha
      simp only [deleted, List.mem_append, List.mem_cons, List.not_mem_nil, or_false] at ha
      rcases ha with (ha | ha) | rfl
      · have := s4 a ha; omega
      · have := l4 a ha; omega
      · omega
    · simp only [deleted]
      rw [List.nodup_append, List.nodup_append]
      refine ⟨⟨s5, l5, ?_⟩, by simp, ?_⟩
      · intro a ha c hc e
        subst e
        have := s4 a ha
        have := l4 a hc
        omega
      · intro a ha c hc e
        simp only [List.mem_cons, List.not_mem_nil, or_false] at hc
        subst hc; subst e
        rw [List.mem_append] at ha
        rcases ha with ha | ha
        · have := s4 _ ha; omega
        · have := l4 _ ha; omega

/-! ### merging -/


def key (b : HBlock) : Nat × Str := (b.ty, b.name)

theorem view_key (h : Heap) (b : HBlock) : (view h b).key = b.key := by cases b; rfl

theorem copy_key (b : HBlock) (st : HSt) : (copy b st).1.key = b.key := by cases b; rfl

theorem merge_key (an : Bool) (c b : HBlock) (st : HSt) : (merge an c b st).1.key = b.key := by
  cases c; simp only [merge]; rfl

theorem keyBeq (c d : HBlock) : (d.ty == c.ty && d.name == c.name) = decide (d.key = c.key) := by
  simp only [key, Prod.mk.injEq, Bool.decide_and]
  by_cases h1 : d.ty = c.ty <;> by_cases h2 : d.name = c.name <;> simp [h1, h2]

mutual
/-- The settings of the source that end up shared: those without a namesake in the target
block of the same path. -/
def shared : HBlock → HBlock → List Nat
  | mk _ _ _ _ _ sets sub, b =>
    (sets.filter (fun s => !b.sets.any (fun t => t.2 == s.2))).map Prod.fst ++ sharedSubs sub b.subs
def sharedSubs : List HBlock → List HBlock → List Nat
  | [], _ => []
  | c :: cs, bs =>
    (match bs.find? (fun d => decide (d.key = c.key)) with
      | some d => shared c d
      | none => []) ++ sharedSubs cs bs
end

theorem mergeSets_false (ss ts : List (Nat × Str)) (h : Heap) :
    (mergeSets false ss (ts, h)).1 = ts := by
  induction ss generalizing h with
  | nil => rfl
  | cons s ss ih =>
    simp only [mergeSets]
    split
    · exact ih _
    · simpa using ih _

theorem mergeSets_true (ss ts : List (Nat × Str)) (h : Heap) (hn : (ss.map Prod.snd).Nodup) :
    (mergeSets true ss (ts, h)).1 = ts ++ ss.filter (fun s => !ts.any (fun t => t.2 == s.2)) := by
  induction ss generalizing ts h with
  | nil => simp [mergeSets]
  | cons s ss ih =>
    simp only [List.map_cons, List.nodup_cons] at hn
    simp only [mergeSets]
    split
    · rename_i t ht
      rw [ih _ _ hn.2]
      have : ts.any (fun t => t.2 == s.2) = true := by
        rw [List.any_eq_true]
        exact ⟨t, List.mem_of_find?_eq_some ht, List.find?_some (p := fun t : Nat × Str => t.2 == s.2) ht⟩
      rw [List.filter_cons, this]
      simp
    · rename_i ht
      have hno : ts.any (fun t => t.2 == s.2) = false := by
        rw [List.any_eq_false]
        rw [List.find?_eq_none] at ht
        exact ht
      simp only [if_true]
      rw [ih _ _ hn.2, List.filter_cons, hno]
      simp only [Bool.not_false, if_true, List.append_assoc, List.singleton_append]
      congr 2
      apply List.filter_congr
      intro x hx
      have : ¬ s.2 = x.2 := by
        intro e
        exact hn.1 (e ▸ List.mem_map.2 ⟨x, hx, rfl⟩)
      simp [this]

theorem deletedList_set {bs : List HBlock} {i : Nat} {d r : HBlock} {X : List Nat}
    (h : bs[i]? = some d) (hp : (r.deleted).Perm (d.deleted ++ X)) :
    (deletedList (bs.set i r)).Perm (deletedList bs ++ X) := by
  induction bs generalizing i with
  | nil => simp at h
  | cons b bs ih =>
    cases i with
    | zero =>
      simp only [List.getElem?_cons_zero, Option.some.injEq] at h
      subst h
      simp only [List.set_cons_zero, deletedList]
      have := hp.append_right (deletedList bs)
      refine this.trans ?_
      rw [List.append_assoc, List.append_assoc]
      exact List.Perm.append_left _ List.perm_append_comm
    | succ i =>
      simp only [List.set_cons_succ, deletedList, List.append_assoc]
      exact List.Perm.append_left _ (ih (by simpa using h))

theorem deletedList_set_eq {bs : List HBlock} {i : Nat} {d r : HBlock}
    (h : bs[i]? = some d) (hp : r.deleted = d.deleted) :
    deletedList (bs.set i r) = deletedList bs := by
  induction bs generalizing i with
  | nil => rfl
  | cons b bs ih =>
    cases i with
    | zero =>
      simp only [List.getElem?_cons_zero, Option.some.injEq] at h
      subst h
      simp [deletedList, hp]
    | succ i =>
      simp only [List.set_cons_succ, deletedList]
      rw [ih (by simpa using h)]

theorem find?_self {sub : List HBlock} {c : HBlock} (h2 : (sub.map key).Nodup) (hc : c ∈ sub) :
    sub.find? (fun d => decide (d.key = c.key)) = some c := by
  induction sub with
  | nil => simp at hc
  | cons y l ih =>
    simp only [List.map_cons, List.nodup_cons] at h2
    rcases List.mem_cons.1 hc with rfl | hc
    · simp
    · have : ¬ y.key = c.key := by
        intro e
        exact h2.1 (e ▸ List.mem_map.2 ⟨c, hc, rfl⟩)
      simp [this, ih h2.2 hc]

theorem find?_set_miss {bs : List HBlock} {i : Nat} {d r : HBlock} {k : Nat × Str}
    (h : bs[i]? = some d) (hr : r.key = d.key) (hk : d.key ≠ k) :
    (bs.set i r).find? (fun d => decide (d.key = k)) = bs.find? (fun d => decide (d.key = k)) := by
  induction bs generalizing i with
  | nil => rfl
  | cons b bs ih =>
    cases i with
    | zero =>
      simp only [List.getElem?_cons_zero, Option.some.injEq] at h
      subst h
      simp [List.find?_cons, hr, hk]
    | succ i =>
      simp only [List.set_cons_succ, List.find?_cons]
      rw [ih (by simpa using h)]

theorem sharedSubs_congr {cs bs bs' : List HBlock}
    (h : ∀ c ∈ cs, bs.find? (fun d => decide (d.key = c.key)) = bs'.find? (fun d => decide (d.key = c.key))) :
    sharedSubs cs bs = sharedSubs cs bs' := by
  induction cs with
  | nil => rfl
  | cons c cs ih =>
    simp only [sharedSubs]
    rw [h c (by simp), ih (fun c hc => h c (by simp [hc]))]

theorem find?_of_findIdx? {bs : List HBlock} {p : HBlock → Bool} {i : Nat}
    (h : bs.findIdx? p = some i) : ∃ d, bs[i]? = some d ∧ bs.find? p = some d ∧ p d = true := by
  induction bs generalizing i with
  | nil => simp at h
  | cons b bs ih =>
    rw [List.findIdx?_cons] at h
    cases hp : p b with
    | true =>
      simp only [hp, if_true, Option.some.injEq] at h
      subst h
      exact ⟨b, rfl, by simp [hp], hp⟩
    | false =>
      simp only [hp, Bool.false_eq_true, if_false, Option.map_eq_some_iff] at h
      obtain ⟨j, hj, rfl⟩ := h
      obtain ⟨d, h1, h2, h3⟩ := ih hj
      exact ⟨d, by simpa using h1, by simpa [List.find?_cons, hp] using h2, h3⟩

theorem find?_of_findIdx?_none {bs : List HBlock} {p : HBlock → Bool}
    (h : bs.findIdx? p = none) : bs.find? p = none := by
  rw [List.find?_eq_none]
  rw [List.findIdx?_eq_none_iff] at h
  intro x hx
  simp [h x hx]

/-- Setting names and sub-block keys are unique in the tree. -/
inductive Uniq : HBlock → Prop
  | mk {a p t n s sets sub} : (sets.map Prod.snd).Nodup → (sub.map key).Nodup →
      (∀ c ∈ sub, Uniq c) → Uniq (HBlock.mk a p t n s sets sub)

theorem Uniq.of_view {h : Heap} {b : HBlock} (hu : (view h b).Uniq) : b.Uniq := by
  induction b using ind with
  | h a p t n s sets sub ih =>
    obtain ⟨h1, h2, h3⟩ := hu.elim
    simp only [view, Block.settings, Block.subs, List.map_map, viewList_eq] at h1 h2 h3
    refine .mk ?_ ?_ ?_
    · exact h1
    · have : (Block.key ∘ view h) = key := by funext x; exact view_key h x
      rw [this] at h2
      exact h2
    · intro c hc
      exact ih c hc (h3 _ (List.mem_map.2 ⟨c, hc, rfl⟩))

/-- A merge without new settings keeps exactly the target's objects. -/
theorem merge_false (c b : HBlock) (st : HSt) :
    (merge false c b st).1.deleted = b.deleted ∧ (merge false c b st).2.next = st.next := by
  induction c using ind generalizing b st with
  | h a p t n s sets sub ih =>
    have hsub : ∀ (cs : List HBlock), (∀ c ∈ cs, c ∈ sub) → ∀ bs st,
        deletedList (mergeSubs false cs bs st).1 = deletedList bs ∧
          (mergeSubs false cs bs st).2.next = st.next := by
      intro cs
      induction cs with
      | nil => intro _ bs st; simp [mergeSubs]
      | cons c cs ih2 =>
        intro hcs bs st
        have hcs' : ∀ c ∈ cs, c ∈ sub := fun c hc => hcs c (by simp [hc])
        simp only [mergeSubs]
        split
        · rename_i i hi
          split
          · rename_i d hd
            obtain ⟨h1, h2⟩ := ih c (hcs c (by simp)) d st
            obtain ⟨h3, h4⟩ := ih2 hcs' (bs.set i (merge false c d st).1) (merge false c d st).2
            refine ⟨?_, by rw [h4, h2]⟩
            rw [h3]
            exact deletedList_set_eq hd h1
          · simp
        · simpa using ih2 hcs' bs st
    obtain ⟨a', p', t', n', s', sets', sub'⟩ := b
    simp only [merge]
    have := hsub sub (fun c h => h) sub' ⟨(mergeSets false sets (sets', st.heap)).2, st.next⟩
    simp only [HBlock.subs, HBlock.sets, HBlock.addr, deleted, mergeSets_false] at *
    exact ⟨by rw [this.1], this.2⟩

/-- A merge with new settings: the target's objects, the shared ones, and fresh ones. -/
def MergeSpec (c : HBlock) : Prop := c.Uniq → ∀ (b : HBlock) (st : HSt),
  (∀ a ∈ c.deleted, a < st.next) →
  st.next ≤ (merge true c b st).2.next ∧
  ∃ fr : List Nat, fr.Nodup ∧ (∀ a ∈ fr, st.next ≤ a ∧ a < (merge true c b st).2.next) ∧
    ((merge true c b st).1.deleted).Perm (b.deleted ++ (shared c b ++ fr))

theorem mergeSubs_spec (cs : List HBlock) (hcs : ∀ c ∈ cs, MergeSpec c) (hu : ∀ c ∈ cs, c.Uniq)
    (hk : (cs.map key).Nodup) (bs : List HBlock) (st : HSt) (hb : ∀ a ∈ deletedList cs, a < st.next) :
    st.next ≤ (mergeSubs true cs bs st).2.next ∧
    ∃ fr : List Nat, fr.Nodup ∧ (∀ a ∈ fr, st.next ≤ a ∧ a < (mergeSubs true cs bs st).2.next) ∧
      (deletedList (mergeSubs true cs bs st).1).Perm (deletedList bs ++ (sharedSubs cs bs ++ fr)) := by
  induction cs generalizing bs st with
  | nil => exact ⟨Nat.le_refl _, [], by simp, by simp, by simp [mergeSubs, sharedSubs]⟩
  | cons c cs ih =>
    simp only [List.map_cons, List.nodup_cons] at hk
    simp only [deletedList, List.mem_append] at hb
    have hne : ∀ x ∈ cs, c.key ≠ x.key := by
      intro x hx e
      exact hk.1 (e ▸ List.mem_map.2 ⟨x, hx, rfl⟩)
    have ih' := ih (fun x hx => hcs x (by simp [hx])) (fun x hx => hu x (by simp [hx])) hk.2
    have hp : (fun d : HBlock => d.ty == c.ty && d.name == c.name) =
        fun d => decide (d.key = c.key) := by funext d; exact keyBeq c d
    simp only [mergeSubs, hp]
    split
    · rename_i i hi
      obtain ⟨d, hd, hf, hkd⟩ := find?_of_findIdx? hi
      have hkd : d.key = c.key := by simpa using hkd
      simp only [hd]
      obtain ⟨m1, fr1, m2, m3, m4⟩ := hcs c (by simp) (hu c (by simp)) d st (fun a ha => hb a (.inl ha))
      have mk' := merge_key true c d st
      generalize merge true c d st = r at *
      obtain ⟨i1, fr2, i2, i3, i4⟩ := ih' (bs.set i r.1) r.2
        (fun a ha => by have := hb a (.inr ha); omega)
      refine ⟨by omega, fr1 ++ fr2, ?_, ?_, ?_⟩
      · rw [List.nodup_append]
        refine ⟨m2, i2, ?_⟩
        intro a ha x hx e
        subst e
        have := m3 a ha
        have := i3 a hx
        omega
      · intro a ha
        rw [List.mem_append] at ha
        rcases ha with ha | ha
        · have := m3 a ha; omega
        · have := i3 a ha; omega
      · have hs : sharedSubs cs (bs.set i r.1) = sharedSubs cs bs := by
          apply sharedSubs_congr
          intro x hx
          exact find?_set_miss hd mk' (by rw [hkd]; exact hne x hx)
        rw [hs] at i4
        simp only [sharedSubs, hf]
        have hp1 := deletedList_set hd m4
        refine i4.trans ?_
        refine (hp1.append_right _).trans ?_
        simp only [List.append_assoc]
        refine List.Perm.append_left _ (List.Perm.append_left _ ?_)
        exact List.perm_append_comm_assoc _ _ _
    · rename_i hi
      have hf := find?_of_findIdx?_none hi
      simp only [if_true]
      obtain ⟨-, -, c3, c4, c5⟩ := copy_spec c st (fun a ha => hb a (.inl ha))
      have ck := copy_key c st
      generalize copy c st = r at *
      obtain ⟨i1, fr2, i2, i3, i4⟩ := ih' (bs ++ [r.1]) r.2
        (fun a ha => by have := hb a (.inr ha); omega)
      refine ⟨by omega, r.1.deleted ++ fr2, ?_, ?_, ?_⟩
      · rw [List.nodup_append]
        refine ⟨c5, i2, ?_⟩
        intro a ha x hx e
        subst e
        have := c4 a ha
        have := i3 a hx
        omega
      · intro a ha
        rw [List.mem_append] at ha
        rcases ha with ha | ha
        · have := c4 a ha; omega
        · have := i3 a ha; omega
      · have hs : sharedSubs cs (bs ++ [r.1]) = sharedSubs cs bs := by
          apply sharedSubs_congr
          intro x hx
          rw [List.find?_append]
          have : ¬ r.1.key = x.key := by rw [ck]; exact hne x hx
          simp [this]
        rw [hs, deletedList_append] at i4
        simp only [sharedSubs, hf, List.nil_append]
        refine i4.trans ?_
        simp only [deletedList, List.append_nil, List.append_assoc]
        refine List.Perm.append_left _ ?_
        exact List.perm_append_comm_assoc _ _ _

theorem merge_spec (c : HBlock) : MergeSpec c := by
  induction c using ind with
  | h a p t n s sets sub ih =>
    intro hu b st hb
    cases hu with
    | mk h1 h2 h3 =>
    simp only [deleted, List.mem_append] at hb
    obtain ⟨a', p', t', n', s', sets', sub'⟩ := b
    obtain ⟨i1, fr, i2, i3, i4⟩ := mergeSubs_spec sub ih h3 h2 sub'
      ⟨(mergeSets true sets (sets', st.heap)).2, st.next⟩ (fun a ha => hb a (.inl (.inr ha)))
    simp only [merge, HBlock.sets, HBlock.subs, HBlock.addr]
    refine ⟨i1, fr, i2, i3, ?_⟩
    simp only [deleted, shared, HBlock.sets, HBlock.subs]
    rw [mergeSets_true _ _ _ h1]
    generalize mergeSubs true sub sub' ⟨(mergeSets true sets (sets', st.heap)).2, st.next⟩ = q at *
    simp only [List.map_append]
    generalize List.map Prod.fst (List.filter (fun s => !sets'.any fun t => t.snd == s.snd) sets) = N
    generalize List.map Prod.fst sets' = S
    generalize sharedSubs sub sub' = SS at *
    generalize deletedList sub' = D at *
    -- (S ++ N) ++ del q ++ [a'] ~ S ++ D ++ [a'] ++ (N ++ SS ++ fr)
    have e1 : ((S ++ N) ++ deletedList q.1 ++ [a']).Perm ((S ++ N) ++ (D ++ (SS ++ fr)) ++ [a']) :=
      List.Perm.append_right _ (List.Perm.append_left _ i4)
    refine e1.trans ?_
    simp only [List.append_assoc]
    refine List.Perm.append_left _ ?_
    -- N ++ (D ++ (SS ++ (fr ++ [a']))) ~ D ++ ([a'] ++ (N ++ (SS ++ fr)))
    have e2 : (N ++ (D ++ (SS ++ (fr ++ [a'])))).Perm (D ++ (N ++ (SS ++ (fr ++ [a'])))) :=
      List.perm_append_comm_assoc _ _ _
    refine e2.trans (List.Perm.append_left _ ?_)
    have e3 : (N ++ (SS ++ (fr ++ [a']))) = (N ++ (SS ++ fr)) ++ [a'] := by simp
    rw [e3]
    exact List.perm_append_comm

theorem shared_sub (c b : HBlock) : ∀ a ∈ shared c b, a ∈ c.deleted := by
  induction c using ind generalizing b with
  | h a p t n s sets sub ih =>
    have hsub : ∀ cs : List HBlock, (∀ c ∈ cs, c ∈ sub) → ∀ bs, ∀ x ∈ sharedSubs cs bs, x ∈ deletedList cs := by
      intro cs
      induction cs with
      | nil => simp [sharedSubs]
      | cons c cs ih2 =>
        intro hcs bs x hx
        simp only [sharedSubs, List.mem_append] at hx
        simp only [deletedList, List.mem_append]
        rcases hx with hx | hx
        · left
          split at hx
          · exact ih c (hcs c (by simp)) _ x hx
          · simp at hx
        · exact .inr (ih2 (fun c hc => hcs c (by simp [hc])) bs x hx)
    intro x hx
    simp only [shared, List.mem_append] at hx
    simp only [deleted, List.mem_append]
    rcases hx with hx | hx
    · left; left
      obtain ⟨y, hy, rfl⟩ := List.mem_map.1 hx
      exact List.mem_map.2 ⟨y, (List.mem_filter.1 hy).1, rfl⟩
    · exact .inl (.inr (hsub sub (fun c h => h) _ x hx))

theorem mem_sharedSubs {cs bs : List HBlock} {x : Nat} :
    x ∈ sharedSubs cs bs ↔ ∃ c ∈ cs, ∃ d, bs.find? (fun d => decide (d.key = c.key)) = some d ∧
      x ∈ shared c d := by
  induction cs with
  | nil => simp [sharedSubs]
  | cons c cs ih =>
    simp only [sharedSubs, List.mem_append, ih, List.mem_cons]
    constructor
    · rintro (h | ⟨c', hc', h⟩)
      · split at h
        · rename_i d hd
          exact ⟨c, .inl rfl, d, hd, h⟩
        · simp at h
      · exact ⟨c', .inr hc', h⟩
    · rintro ⟨c', rfl | hc', d, hd, h⟩
      · left; rw [hd]; exact h
      · exact .inr ⟨c', hc', d, hd, h⟩

theorem view_sub? (h : Heap) (b : HBlock) (k : Nat × Str) :
    (view h b).sub? k = (b.subs.find? (fun d => decide (d.key = k))).map (view h) := by
  rw [Block.sub?_eq]
  cases b
  simp only [view, Block.subs, HBlock.subs, viewList_eq]
  rw [List.find?_map]
  congr 2
  funext d
  simp only [Function.comp, view_key]

theorem view_values_nil (h : Heap) (b : HBlock) (n : Str) :
    ((view h b).valuesAt [] n).isSome = b.sets.any (fun t => t.2 == n) := by
  rw [← Block.hasSetting_iff]
  cases b
  simp [view, Block.hasSetting, Block.settings, HBlock.sets, List.any_map, Function.comp_def]

/-- Something is shared iff some block of the target lacks a setting that the source's block
of the same path has. -/
theorem shared_iff (h : Heap) (c b : HBlock) (hu : c.Uniq) :
    shared c b ≠ [] ↔ ∃ p n, ((view h b).find p).isSome ∧ ((view h c).valuesAt p n).isSome ∧
      (view h b).valuesAt p n = none := by
  constructor
  · induction c using ind generalizing b with
    | h a p t n s sets sub ih =>
      cases hu with
      | mk h1 h2 h3 =>
      intro hne
      obtain ⟨x, hx⟩ := List.exists_mem_of_ne_nil _ hne
      simp only [shared, List.mem_append] at hx
      rcases hx with hx | hx
      · obtain ⟨y, hy, rfl⟩ := List.mem_map.1 hx
        obtain ⟨hy1, hy2⟩ := List.mem_filter.1 hy
        refine ⟨[], y.2, rfl, ?_, ?_⟩
        · rw [view_values_nil, List.any_eq_true]
          exact ⟨y, hy1, by simp⟩
        · have := view_values_nil h b y.2
          have hf : b.sets.any (fun t => t.2 == y.2) = false := by simpa using hy2
          rw [hf] at this
          cases hv : (view h b).valuesAt [] y.2 with
          | none => rfl
          | some v => rw [hv] at this; cases this
      · obtain ⟨c, hc, d, hd, hm⟩ := mem_sharedSubs.1 hx
        obtain ⟨p', n', e1, e2, e3⟩ := ih c hc d (h3 c hc) (List.ne_nil_of_mem hm)
        have hcs : (view h (HBlock.mk a p t n s sets sub)).sub? c.key = some (view h c) := by
          rw [view_sub?]
          have := find?_self h2 hc
          simp only [HBlock.subs, this, Option.map_some]
        have hbs : (view h b).sub? c.key = some (view h d) := by
          rw [view_sub?, hd]; rfl
        refine ⟨c.key :: p', n', ?_, ?_, ?_⟩
        · rw [Block.find_cons', hbs]; exact e1
        · rw [Block.valuesAt_cons', hcs]; exact e2
        · rw [Block.valuesAt_cons', hbs]; exact e3
  · rintro ⟨p, n, e1, e2, e3⟩
    induction p generalizing c b with
    | nil =>
      rw [view_values_nil] at e2
      have e3' := view_values_nil h b n
      rw [e3] at e3'
      obtain ⟨y, hy, he⟩ := List.any_eq_true.1 e2
      have he : y.2 = n := by simpa using he
      subst he
      apply List.ne_nil_of_mem (a := y.1)
      obtain ⟨a, p, t, n, s, sets, sub⟩ := c
      simp only [shared, List.mem_append]
      left
      refine List.mem_map.2 ⟨y, List.mem_filter.2 ⟨hy, ?_⟩, rfl⟩
      rw [← e3']; rfl
    | cons k p ih =>
      rw [Block.find_cons'] at e1
      rw [Block.valuesAt_cons'] at e2 e3
      rw [view_sub?] at e1 e2 e3
      cases hb : b.subs.find? (fun d => decide (d.key = k)) with
      | none => rw [hb] at e1; cases e1
      | some d =>
        cases hc : c.subs.find? (fun d => decide (d.key = k)) with
        | none => rw [hc] at e2; cases e2
        | some c' =>
          rw [hb] at e1 e3
          rw [hc] at e2
          have hmem := List.mem_of_find?_eq_some hc
          have hkey : c'.key = k := by
            simpa using List.find?_some (p := fun d : HBlock => decide (d.key = k)) hc
          have hu' : c'.Uniq := by
            cases hu with
            | mk h1 h2 h3 => exact h3 c' hmem
          have := ih c' d hu' e1 e2 e3
          obtain ⟨x, hx⟩ := List.exists_mem_of_ne_nil _ this
          apply List.ne_nil_of_mem (a := x)
          obtain ⟨a, p, t, n, s, sets, sub⟩ := c
          simp only [shared, List.mem_append]
          right
          rw [mem_sharedSubs]
          exact ⟨c', hmem, d, by rw [hkey]; exact hb, hx⟩

end HBlock
end Softlib.Config
