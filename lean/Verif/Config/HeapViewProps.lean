/-
The two models of `Merge` agree: the pointer model (HeapModel) with the identities forgotten
is the value model (MergeModel), for every source and target made of different objects.
-/
import Verif.Config.HeapLemmas

namespace Softlib.Config
namespace HBlock

/-- The settings of a block, identities forgotten. -/
def viewSets (h : Heap) (l : List (Nat × Str)) : List Setting :=
  l.map (fun x => ⟨x.2, (h x.1).1, (h x.1).2⟩)

theorem viewSets_congr {h h' : Heap} {l : List (Nat × Str)}
    (e : ∀ a ∈ l.map Prod.fst, h a = h' a) : viewSets h l = viewSets h' l := by
  apply List.map_congr_left
  intro x hx
  rw [e x.1 (List.mem_map.2 ⟨x, hx, rfl⟩)]

theorem viewSets_put (h : Heap) (a : Nat) (v : List Str × Bool) (l : List (Nat × Str))
    (ha : a ∉ l.map Prod.fst) : viewSets (h.put a v) l = viewSets h l := by
  apply viewSets_congr
  intro x hx
  have : x ≠ a := fun e => ha (e ▸ hx)
  simp [Heap.put, this]

theorem viewSets_hit (h : Heap) (n : Str) (v : List Str) (l : List (Nat × Str))
    (hn : (l.map Prod.fst).Nodup) (t : Nat × Str) (ht : l.find? (fun t => t.2 == n) = some t) :
    viewSets (h.put t.1 (v, (h t.1).2)) l =
      Block.modifyFirst (fun x => x.name == n) (fun x => { x with values := v }) (viewSets h l) := by
  induction l with
  | nil => simp at ht
  | cons x l ih =>
    simp only [List.map_cons, List.nodup_cons] at hn
    rw [List.find?_cons] at ht
    cases hx : (x.2 == n) with
    | true =>
      simp only [hx, Option.some.injEq] at ht
      subst ht
      have e := viewSets_put h x.1 (v, (h x.1).2) l hn.1
      unfold viewSets at e ⊢
      simp only [List.map_cons, Block.modifyFirst, hx, if_true, e]
      simp [Heap.put]
    | false =>
      simp only [hx] at ht
      have hm : t.1 ∈ l.map Prod.fst := List.mem_map.2 ⟨t, List.mem_of_find?_eq_some ht, rfl⟩
      have hne : x.1 ≠ t.1 := fun e => hn.1 (e ▸ hm)
      have e := ih hn.2 ht
      unfold viewSets at e ⊢
      simp only [List.map_cons, Block.modifyFirst, hx, Bool.false_eq_true, if_false, e]
      simp [Heap.put, hne]

theorem viewSets_any (h : Heap) (n : Str) (l : List (Nat × Str)) :
    (viewSets h l).any (fun s => s.name == n) = (l.find? (fun t => t.2 == n)).isSome := by
  unfold viewSets
  rw [List.any_map]
  induction l with
  | nil => rfl
  | cons x l ih =>
    rw [List.any_cons, List.find?_cons, ih]
    cases hx : (x.2 == n) <;> simp [hx]

/-- The settings loop. -/
theorem mergeSets_view (an : Bool) (ss ts : List (Nat × Str)) (h : Heap) (T : Block)
    (u : Option (List Str)) (hT : T.settings = viewSets h ts)
    (h1 : (ts.map Prod.fst).Nodup) (h2 : (ss.map Prod.fst).Nodup)
    (h3 : ∀ a ∈ ts.map Prod.fst, a ∉ ss.map Prod.fst) :
    (Block.mergeSettings an (viewSets h ss) (T, u)).1 =
      .mk T.ty T.name T.sec (viewSets (mergeSets an ss (ts, h)).2 (mergeSets an ss (ts, h)).1) T.subs ∧
    (∀ a, a ∉ ts.map Prod.fst → a ∉ ss.map Prod.fst → (mergeSets an ss (ts, h)).2 a = h a) ∧
    ((mergeSets an ss (ts, h)).1.map Prod.fst).Nodup ∧
    (∀ a ∈ (mergeSets an ss (ts, h)).1.map Prod.fst, a ∈ ts.map Prod.fst ∨ a ∈ ss.map Prod.fst) := by
  induction ss generalizing ts h T u with
  | nil =>
    refine ⟨?_, fun _ _ _ => rfl, h1, fun a ha => .inl ha⟩
    obtain ⟨t, n, s, sets, sub⟩ := T
    change sets = _ at hT
    subst hT
    rfl
  | cons s ss ih =>
    obtain ⟨ty, nm, sec, sets, sub⟩ := T
    change sets = _ at hT
    subst hT
    simp only [List.map_cons, List.nodup_cons] at h2
    have h3' : ∀ a ∈ ts.map Prod.fst, a ∉ ss.map Prod.fst := fun a ha hm => h3 a ha (by simp [hm])
    have hs : s.1 ∉ ts.map Prod.fst := fun hm => h3 s.1 hm (by simp)
    have hv : viewSets h (s :: ss) = ⟨s.2, (h s.1).1, (h s.1).2⟩ :: viewSets h ss := rfl
    have hany : Block.hasSetting (.mk ty nm sec (viewSets h ts) sub) s.2 =
        (ts.find? (fun t => t.2 == s.2)).isSome := viewSets_any h s.2 ts
    cases hf : ts.find? (fun t => t.2 == s.2) with
    | some t =>
      have htm : t.1 ∈ ts.map Prod.fst := List.mem_map.2 ⟨t, List.mem_of_find?_eq_some hf, rfl⟩
      have hm : mergeSets an (s :: ss) (ts, h) =
          mergeSets an ss (ts, h.put t.1 ((h s.1).1, (h t.1).2)) := by
        simp only [mergeSets, hf]
      have hb : Block.mergeSettings an (viewSets h (s :: ss)) (.mk ty nm sec (viewSets h ts) sub, u) =
          Block.mergeSettings an (viewSets (h.put t.1 ((h s.1).1, (h t.1).2)) ss)
            (.mk ty nm sec (viewSets (h.put t.1 ((h s.1).1, (h t.1).2)) ts) sub, u) := by
        rw [hv, viewSets_put _ _ _ ss (h3' _ htm), viewSets_hit h s.2 _ ts h1 t hf]
        simp only [Block.mergeSettings, hany, hf, Option.isSome_some, if_true]
        rfl
      rw [hm, hb]
      obtain ⟨i1, i2, i3, i4⟩ := ih ts (h.put t.1 ((h s.1).1, (h t.1).2))
        (.mk ty nm sec (viewSets (h.put t.1 ((h s.1).1, (h t.1).2)) ts) sub) u rfl h1 h2.2 h3'
      refine ⟨i1, ?_, i3, ?_⟩
      · intro a ha hb
        simp only [List.map_cons, List.mem_cons, not_or] at hb
        rw [i2 a ha hb.2]
        have : a ≠ t.1 := fun e => ha (e ▸ htm)
        simp [Heap.put, this]
      · intro a ha
        rcases i4 a ha with q | q
        · exact .inl q
        · exact .inr (by simp [q])
    | none =>
      cases an with
      | true =>
        have hm : mergeSets true (s :: ss) (ts, h) = mergeSets true ss (ts ++ [s], h) := by
          simp only [mergeSets, hf, if_true]
        have hb : Block.mergeSettings true (viewSets h (s :: ss)) (.mk ty nm sec (viewSets h ts) sub, u) =
            Block.mergeSettings true (viewSets h ss) (.mk ty nm sec (viewSets h (ts ++ [s])) sub, u) := by
          rw [hv]
          simp only [Block.mergeSettings, Block.addSetting, hany, hf, Option.isSome_none,
            Bool.false_eq_true, if_false, if_true]
          simp [viewSets, Block.ty, Block.name, Block.sec, Block.settings, Block.subs]
        rw [hm, hb]
        have k1 : ((ts ++ [s]).map Prod.fst).Nodup := by
          rw [List.map_append, List.nodup_append]
          refine ⟨h1, by simp, ?_⟩
          intro a ha b hb e
          simp only [List.map_cons, List.map_nil, List.mem_singleton] at hb
          exact hs (hb ▸ e ▸ ha)
        have k3 : ∀ a ∈ (ts ++ [s]).map Prod.fst, a ∉ ss.map Prod.fst := by
          intro a ha
          rw [List.map_append, List.mem_append] at ha
          rcases ha with ha | ha
          · exact h3' a ha
          · simp only [List.map_cons, List.map_nil, List.mem_singleton] at ha
            exact ha ▸ h2.1
        obtain ⟨i1, i2, i3, i4⟩ := ih (ts ++ [s]) h (.mk ty nm sec (viewSets h (ts ++ [s])) sub) u rfl
          k1 h2.2 k3
        refine ⟨i1, ?_, i3, ?_⟩
        · intro a ha hb
          simp only [List.map_cons, List.mem_cons, not_or] at hb
          apply i2 a _ hb.2
          rw [List.map_append, List.mem_append, not_or]
          exact ⟨ha, by simpa using hb.1⟩
        · intro a ha
          rcases i4 a ha with q | q
          · rw [List.map_append, List.mem_append] at q
            rcases q with q | q
            · exact .inl q
            · exact .inr (by simp only [List.map_cons, List.map_nil, List.mem_singleton] at q; simp [q])
          · exact .inr (by simp [q])
      | false =>
        have hm : mergeSets false (s :: ss) (ts, h) = mergeSets false ss (ts, h) := by
          simp only [mergeSets, hf, Bool.false_eq_true, if_false]
        have hb : Block.mergeSettings false (viewSets h (s :: ss)) (.mk ty nm sec (viewSets h ts) sub, u) =
            Block.mergeSettings false (viewSets h ss) (.mk ty nm sec (viewSets h ts) sub,
              Block.pushUnknown u s.2) := by
          rw [hv]
          simp only [Block.mergeSettings, hany, hf, Option.isSome_none,
            Bool.false_eq_true, if_false]
        rw [hm, hb]
        obtain ⟨i1, i2, i3, i4⟩ := ih ts h (.mk ty nm sec (viewSets h ts) sub)
          (Block.pushUnknown u s.2) rfl h1 h2.2 h3'
        refine ⟨i1, ?_, i3, ?_⟩
        · intro a ha hb
          simp only [List.map_cons, List.mem_cons, not_or] at hb
          exact i2 a ha hb.2
        · intro a ha
          rcases i4 a ha with q | q
          · exact .inl q
          · exact .inr (by simp [q])

/-- Merging, as it is to be shown for one source. -/
def MergeView (an : Bool) (c : HBlock) : Prop := ∀ (b : HBlock) (st : HSt),
  b.deleted.Nodup → c.deleted.Nodup → (∀ a ∈ b.deleted, a ∉ c.deleted) →
  (∀ a ∈ b.deleted, a < st.next) → (∀ a ∈ c.deleted, a < st.next) →
  view (merge an c b st).2.heap (merge an c b st).1 =
    (Block.merge an (view st.heap c) (view st.heap b)).1 ∧
  (∀ a, a < st.next → a ∉ b.deleted → a ∉ c.deleted → (merge an c b st).2.heap a = st.heap a) ∧
  st.next ≤ (merge an c b st).2.next ∧ (merge an c b st).1.deleted.Nodup ∧
  (∀ a ∈ (merge an c b st).1.deleted, a ∈ b.deleted ∨ a ∈ c.deleted ∨
    (st.next ≤ a ∧ a < (merge an c b st).2.next))

theorem nodup_deletedList_set {bs : List HBlock} {i : Nat} {d r : HBlock} (h : bs[i]? = some d)
    (hn : (deletedList bs).Nodup) (hr : r.deleted.Nodup)
    (hm : ∀ a ∈ r.deleted, a ∈ d.deleted ∨ a ∉ deletedList bs) :
    (deletedList (bs.set i r)).Nodup := by
  induction bs generalizing i with
  | nil => simp at h
  | cons b bs ih =>
    simp only [deletedList, List.nodup_append] at hn
    obtain ⟨n1, n2, n3⟩ := hn
    cases i with
    | zero =>
      simp only [List.getElem?_cons_zero, Option.some.injEq] at h
      subst h
      simp only [List.set_cons_zero, deletedList, List.nodup_append]
      refine ⟨hr, n2, ?_⟩
      rintro a ha x hx rfl
      rcases hm a ha with q | q
      · exact n3 a q a hx rfl
      · exact q (by simp [deletedList, hx])
    | succ i =>
      have h' : bs[i]? = some d := by simpa using h
      simp only [List.set_cons_succ, deletedList, List.nodup_append]
      refine ⟨n1, ih h' n2 ?_, ?_⟩
      · intro a ha
        rcases hm a ha with q | q
        · exact .inl q
        · exact .inr (fun hx => q (by simp [deletedList, hx]))
      · rintro a ha x hx rfl
        obtain ⟨y, hy, hya⟩ := mem_deletedList.1 hx
        rcases List.mem_or_eq_of_mem_set hy with hy | rfl
        · exact n3 a ha a (mem_deletedList.2 ⟨y, hy, hya⟩) rfl
        · rcases hm a hya with q | q
          · exact n3 a ha a (mem_deletedList.2 ⟨d, List.mem_of_getElem? h', q⟩) rfl
          · exact q (by simp [deletedList, ha])

theorem deleted_sublist {bs : List HBlock} {d : HBlock} (hdm : d ∈ bs) :
    d.deleted.Sublist (deletedList bs) := by
  induction bs with
  | nil => simp at hdm
  | cons b bs ih =>
    rcases List.mem_cons.1 hdm with rfl | hm
    · exact List.sublist_append_left _ _
    · exact (ih hm).trans (List.sublist_append_right _ _)

theorem viewList_set {h h' : Heap} {bs : List HBlock} {i : Nat} {d r : HBlock}
    (h1 : (deletedList bs).Nodup) (hd : bs[i]? = some d)
    (hm : ∀ a ∈ deletedList bs, a ∉ d.deleted → h' a = h a) :
    viewList h' (bs.set i r) = (viewList h bs).set i (view h' r) := by
  rw [viewList_eq, viewList_eq, List.map_set]
  induction bs generalizing i with
  | nil => rfl
  | cons b bs ih =>
    simp only [deletedList, List.nodup_append] at h1
    obtain ⟨k1, k2, k3⟩ := h1
    cases i with
    | zero =>
      simp only [List.getElem?_cons_zero, Option.some.injEq] at hd
      subst hd
      simp only [List.map_cons, List.set_cons_zero, List.cons.injEq, true_and]
      apply List.map_congr_left
      intro x hx
      apply view_congr
      intro a ha
      have hx' : a ∈ deletedList bs := mem_deletedList.2 ⟨x, hx, ha⟩
      exact hm a (by simp [deletedList, hx']) (fun q => k3 a q a hx' rfl)
    | succ i =>
      have hd' : bs[i]? = some d := by simpa using hd
      have hdb : ∀ a ∈ d.deleted, a ∈ deletedList bs := fun a ha =>
        mem_deletedList.2 ⟨d, List.mem_of_getElem? hd', ha⟩
      simp only [List.map_cons, List.set_cons_succ]
      congr 1
      · apply view_congr
        intro a ha
        exact hm a (by simp [deletedList, ha]) (fun q => k3 a ha a (hdb a q) rfl)
      · exact ih k2 hd' (fun a ha hn => hm a (by simp [deletedList, ha]) hn)

theorem view_mk (h : Heap) (a p t n s sets sub) :
    view h (mk a p t n s sets sub) = .mk t n s (viewSets h sets) (viewList h sub) := by
  simp only [view, viewSets]

theorem subIdx?_view (h : Heap) (ty : Nat) (nm sec : Str) (sets : List Setting) (bs : List HBlock)
    (c : HBlock) :
    (Block.mk ty nm sec sets (viewList h bs)).subIdx? (view h c).ty (view h c).name =
      bs.findIdx? (fun d => d.ty == c.ty && d.name == c.name) := by
  have e : ∀ d : HBlock, (view h d).ty = d.ty ∧ (view h d).name = d.name := by
    intro d; cases d; exact ⟨rfl, rfl⟩
  unfold Block.subIdx?
  simp only [Block.subs, viewList_eq, List.findIdx?_map]
  congr 1
  funext d
  simp [Block.hasTypeAndName, e d, e c]

theorem mergeSubs_view (an : Bool) (cs bs : List HBlock) (hcs : ∀ c ∈ cs, MergeView an c) (st : HSt)
    (ty : Nat) (nm sec : Str) (sets : List Setting) (u : Option (List Str))
    (h1 : (deletedList bs).Nodup) (h2 : (deletedList cs).Nodup)
    (h3 : ∀ a ∈ deletedList bs, a ∉ deletedList cs)
    (h4 : ∀ a ∈ deletedList bs, a < st.next) (h5 : ∀ a ∈ deletedList cs, a < st.next) :
    (Block.mergeSubs an (viewList st.heap cs) (.mk ty nm sec sets (viewList st.heap bs), u)).1 =
      .mk ty nm sec sets (viewList (mergeSubs an cs bs st).2.heap (mergeSubs an cs bs st).1) ∧
    (∀ a, a < st.next → a ∉ deletedList bs → a ∉ deletedList cs →
      (mergeSubs an cs bs st).2.heap a = st.heap a) ∧
    st.next ≤ (mergeSubs an cs bs st).2.next ∧ (deletedList (mergeSubs an cs bs st).1).Nodup ∧
    (∀ a ∈ deletedList (mergeSubs an cs bs st).1, a ∈ deletedList bs ∨ a ∈ deletedList cs ∨
      (st.next ≤ a ∧ a < (mergeSubs an cs bs st).2.next)) := by
  induction cs generalizing bs st u with
  | nil => exact ⟨rfl, fun _ _ _ _ => rfl, Nat.le_refl _, h1, fun a ha => .inl ha⟩
  | cons c cs ih =>
    have hcs' : ∀ c ∈ cs, MergeView an c := fun c hc => hcs c (by simp [hc])
    simp only [deletedList, List.nodup_append] at h2
    obtain ⟨n1, n2, n3⟩ := h2
    have c3 : ∀ a ∈ deletedList bs, a ∉ c.deleted := fun a ha hm => h3 a ha (by simp [deletedList, hm])
    have c4 : ∀ a ∈ deletedList bs, a ∉ deletedList cs := fun a ha hm => h3 a ha (by simp [deletedList, hm])
    have c5 : ∀ a ∈ c.deleted, a < st.next := fun a ha => h5 a (by simp [deletedList, ha])
    have c6 : ∀ a ∈ deletedList cs, a < st.next := fun a ha => h5 a (by simp [deletedList, ha])
    have hidx := subIdx?_view st.heap ty nm sec sets bs c
    have hvl : viewList st.heap (c :: cs) = view st.heap c :: viewList st.heap cs := rfl
    cases hi : bs.findIdx? (fun d => d.ty == c.ty && d.name == c.name) with
    | some i =>
      obtain ⟨d, hd, -, -⟩ := find?_of_findIdx? hi
      have hdm : d ∈ bs := List.mem_of_getElem? hd
      have hdd : ∀ a ∈ d.deleted, a ∈ deletedList bs := fun a ha => mem_deletedList.2 ⟨d, hdm, ha⟩
      have hdn : d.deleted.Nodup := by
        exact h1.sublist (deleted_sublist hdm)
      have hm : mergeSubs an (c :: cs) bs st =
          mergeSubs an cs (bs.set i (merge an c d st).1) (merge an c d st).2 := by
        simp only [mergeSubs, hi, hd]
      obtain ⟨m1, m2, m3, m4, m5⟩ := hcs c (by simp) d st hdn n1 (fun a ha => c3 a (hdd a ha))
        (fun a ha => h4 a (hdd a ha)) c5
      generalize merge an c d st = r at hm m1 m2 m3 m4 m5
      obtain ⟨r1, st'⟩ := r
      dsimp only at hm m1 m2 m3 m4 m5
      -- the views of the other blocks and of the rest of the source
      have vrest : viewList st'.heap cs = viewList st.heap cs := by
        rw [viewList_eq, viewList_eq]
        apply List.map_congr_left
        intro x hx
        apply view_congr
        intro a ha
        have hac : a ∈ deletedList cs := mem_deletedList.2 ⟨x, hx, ha⟩
        exact m2 a (c6 a hac) (fun q => c4 a (hdd a q) hac) (fun q => n3 a q a hac rfl)
      have vset : viewList st'.heap (bs.set i r1) = (viewList st.heap bs).set i (view st'.heap r1) := by
        exact viewList_set h1 hd (fun a ha hn => m2 a (h4 a ha) hn (c3 a ha))
      have k1 : (deletedList (bs.set i r1)).Nodup := by
        refine nodup_deletedList_set hd h1 m4 ?_
        intro a ha
        rcases m5 a ha with q | q | q
        · exact .inl q
        · exact .inr (fun hb => c3 a hb q)
        · exact .inr (fun hb => absurd (h4 a hb) (by omega))
      have kmem : ∀ a ∈ deletedList (bs.set i r1), a ∈ deletedList bs ∨ a ∈ c.deleted ∨
          (st.next ≤ a ∧ a < st'.next) := by
        intro a ha
        obtain ⟨y, hy, hya⟩ := mem_deletedList.1 ha
        rcases List.mem_or_eq_of_mem_set hy with hy | rfl
        · exact .inl (mem_deletedList.2 ⟨y, hy, hya⟩)
        · rcases m5 a hya with q | q
          · exact .inl (hdd a q)
          · exact .inr q
      have k3 : ∀ a ∈ deletedList (bs.set i r1), a ∉ deletedList cs := by
        intro a ha hc
        rcases kmem a ha with q | q | q
        · exact c4 a q hc
        · exact n3 a q a hc rfl
        · have := c6 a hc; omega
      have k4 : ∀ a ∈ deletedList (bs.set i r1), a < st'.next := by
        intro a ha
        rcases kmem a ha with q | q | q
        · have := h4 a q; omega
        · have := c5 a q; omega
        · omega
      have hsub : (viewList st.heap bs)[i]? = some (view st.heap d) := by
        rw [viewList_eq, List.getElem?_map, hd]; rfl
      obtain ⟨i1, i2, i3, i4, i5⟩ := ih (bs.set i r1) hcs' st'
        (Block.joinUnknown u (Block.merge an (view st.heap c) (view st.heap d)).2) k1 n2 k3 k4
        (fun a ha => by have := c6 a ha; omega)
      rw [hm]
      refine ⟨?_, ?_, by omega, i4, ?_⟩
      · rw [hvl, Block.mergeSubs]
        simp only [hidx, hi]
        rw [← i1, vrest, vset, m1]
        simp only [Block.setSub, Block.subAt, Block.subs, hsub, Option.getD_some, Block.ty, Block.name,
          Block.sec, Block.settings]
      · intro a hlt hb hc
        simp only [deletedList, List.mem_append, not_or] at hc
        have hnb : a ∉ deletedList (bs.set i r1) := by
          intro q
          rcases kmem a q with q | q | q
          · exact hb q
          · exact hc.1 q
          · omega
        rw [i2 a (by omega) hnb hc.2]
        exact m2 a hlt (fun q => hb (hdd a q)) hc.1
      · intro a ha
        rcases i5 a ha with q | q | q
        · rcases kmem a q with q | q | q
          · exact .inl q
          · exact .inr (.inl (by simp [deletedList, q]))
          · exact .inr (.inr ⟨q.1, by omega⟩)
        · exact .inr (.inl (by simp [deletedList, q]))
        · exact .inr (.inr ⟨by omega, q.2⟩)
    | none =>
      cases an with
      | false =>
        have hm : mergeSubs false (c :: cs) bs st = mergeSubs false cs bs st := by
          simp only [mergeSubs, hi, Bool.false_eq_true, if_false]
        obtain ⟨i1, i2, i3, i4, i5⟩ := ih bs hcs' st (Block.pushUnknown u (view st.heap c).name)
          h1 n2 c4 h4 c6
        rw [hm]
        refine ⟨?_, ?_, i3, i4, ?_⟩
        · rw [hvl, Block.mergeSubs]
          simp only [hidx, hi, Bool.false_eq_true, if_false]
          exact i1
        · intro a hlt hb hc
          simp only [deletedList, List.mem_append, not_or] at hc
          exact i2 a hlt hb hc.2
        · intro a ha
          rcases i5 a ha with q | q | q
          · exact .inl q
          · exact .inr (.inl (by simp [deletedList, q]))
          · exact .inr (.inr q)
      | true =>
        have hm : mergeSubs true (c :: cs) bs st =
            mergeSubs true cs (bs ++ [(copy c st).1]) (copy c st).2 := by
          simp only [mergeSubs, hi, if_true]
        obtain ⟨m1, m2, m3, m4, m5⟩ := copy_spec c st c5
        generalize copy c st = r at hm m1 m2 m3 m4 m5
        obtain ⟨r1, st'⟩ := r
        dsimp only at hm m1 m2 m3 m4 m5
        have vall : ∀ l : List HBlock, (∀ a ∈ deletedList l, a < st.next) →
            viewList st'.heap l = viewList st.heap l := by
          intro l hl
          rw [viewList_eq, viewList_eq]
          apply List.map_congr_left
          intro x hx
          apply view_congr
          intro a ha
          exact m2 a (hl a (mem_deletedList.2 ⟨x, hx, ha⟩))
        have dl : deletedList (bs ++ [r1]) = deletedList bs ++ r1.deleted := by
          rw [deletedList_append]; simp [deletedList]
        have k1 : (deletedList (bs ++ [r1])).Nodup := by
          rw [dl, List.nodup_append]
          refine ⟨h1, m5, ?_⟩
          rintro a ha x hx rfl
          have := h4 a ha; have := m4 a hx; omega
        have k3 : ∀ a ∈ deletedList (bs ++ [r1]), a ∉ deletedList cs := by
          intro a ha hc
          rw [dl, List.mem_append] at ha
          rcases ha with ha | ha
          · exact c4 a ha hc
          · have := c6 a hc; have := m4 a ha; omega
        have k4 : ∀ a ∈ deletedList (bs ++ [r1]), a < st'.next := by
          intro a ha
          rw [dl, List.mem_append] at ha
          rcases ha with ha | ha
          · have := h4 a ha; omega
          · exact (m4 a ha).2
        obtain ⟨i1, i2, i3, i4, i5⟩ := ih (bs ++ [r1]) hcs' st' u k1 n2 k3 k4
          (fun a ha => by have := c6 a ha; omega)
        rw [hm]
        refine ⟨?_, ?_, by omega, i4, ?_⟩
        · have hck : (view st.heap c).copy.ty = (view st.heap c).ty ∧
              (view st.heap c).copy.name = (view st.heap c).name := by
            cases c; exact ⟨rfl, rfl⟩
          have va : viewList st'.heap (bs ++ [r1]) = viewList st.heap bs ++ [(view st.heap c).copy] := by
            rw [← vall bs h4, viewList_eq, viewList_eq, List.map_append, ← m1]; rfl
          rw [hvl, Block.mergeSubs]
          simp only [hidx, hi, if_true]
          rw [← i1, vall cs c6, va]
          have ha : Block.addExisting (.mk ty nm sec sets (viewList st.heap bs)) (view st.heap c).copy =
              .mk ty nm sec sets (viewList st.heap bs ++ [(view st.heap c).copy]) := by
            unfold Block.addExisting
            rw [hck.1, hck.2, hidx, hi]
            rfl
          rw [ha]
        · intro a hlt hb hc
          simp only [deletedList, List.mem_append, not_or] at hc
          have hnb : a ∉ deletedList (bs ++ [r1]) := by
            rw [dl, List.mem_append, not_or]
            exact ⟨hb, fun q => by have := m4 a q; omega⟩
          rw [i2 a (by omega) hnb hc.2]
          exact m2 a hlt
        · intro a ha
          rcases i5 a ha with q | q | q
          · rw [dl, List.mem_append] at q
            rcases q with q | q
            · exact .inl q
            · have := m4 a q
              exact .inr (.inr ⟨this.1, by omega⟩)
          · exact .inr (.inl (by simp [deletedList, q]))
          · exact .inr (.inr ⟨by omega, q.2⟩)

theorem merge_view (an : Bool) (c : HBlock) : MergeView an c := by
  induction c using ind with
  | h ca cp ct cn csec csets csub ih =>
    intro b st hb hc hd hbl hcl
    obtain ⟨ba, bp, bt, bn, bsec, bsets, bsub⟩ := b
    simp only [deleted, List.nodup_append, List.mem_append, List.mem_singleton] at hb hc hd hbl hcl
    obtain ⟨⟨b1, b2, b3⟩, -, b4⟩ := hb
    obtain ⟨⟨c1, c2, c3⟩, -, c4⟩ := hc
    obtain ⟨s1, s2, s3, s4⟩ := mergeSets_view an csets bsets st.heap
      (.mk bt bn bsec (viewSets st.heap bsets) (viewList st.heap bsub)) none rfl b1 c1
      (fun a ha hm => hd a (.inl (.inl ha)) (.inl (.inl hm)))
    have hm : merge an (mk ca cp ct cn csec csets csub) (mk ba bp bt bn bsec bsets bsub) st =
        (mk ba bp bt bn bsec (mergeSets an csets (bsets, st.heap)).1
          (mergeSubs an csub bsub ⟨(mergeSets an csets (bsets, st.heap)).2, st.next⟩).1,
          (mergeSubs an csub bsub ⟨(mergeSets an csets (bsets, st.heap)).2, st.next⟩).2) := by
      simp only [merge]; rfl
    rw [hm]
    generalize hq : mergeSets an csets (bsets, st.heap) = q at s1 s2 s3 s4
    obtain ⟨q1, q2⟩ := q
    dsimp only at s1 s2 s3 s4 ⊢
    obtain ⟨t1, t2, t3, t4, t5⟩ := mergeSubs_view an csub bsub ih ⟨q2, st.next⟩ bt bn bsec (viewSets q2 q1)
      (Block.mergeSettings an (viewSets st.heap csets)
        (.mk bt bn bsec (viewSets st.heap bsets) (viewList st.heap bsub), none)).2 b2 c2
      (fun a ha hm => hd a (.inl (.inr ha)) (.inl (.inr hm)))
      (fun a ha => hbl a (.inl (.inr ha))) (fun a ha => hcl a (.inl (.inr ha)))
    generalize mergeSubs an csub bsub ⟨q2, st.next⟩ = r at t1 t2 t3 t4 t5
    obtain ⟨r1, st'⟩ := r
    dsimp only at t1 t2 t3 t4 t5 ⊢
    -- the settings of neither block belong to sub-blocks
    have hsub : ∀ l : List HBlock, (∀ a ∈ deletedList l, a ∉ bsets.map Prod.fst ∧ a ∉ csets.map Prod.fst) →
        viewList q2 l = viewList st.heap l := by
      intro l hl
      rw [viewList_eq, viewList_eq]
      apply List.map_congr_left
      intro x hx
      apply view_congr
      intro a ha
      obtain ⟨p1, p2⟩ := hl a (mem_deletedList.2 ⟨x, hx, ha⟩)
      exact s2 a p1 p2
    have hb' := hsub bsub (fun a ha => ⟨fun q => b3 a q a ha rfl,
      fun q => hd a (.inl (.inr ha)) (.inl (.inl q))⟩)
    have hc' := hsub csub (fun a ha => ⟨fun q => hd a (.inl (.inl q)) (.inl (.inr ha)),
      fun q => c3 a q a ha rfl⟩)
    have sfree : ∀ a ∈ q1.map Prod.fst, a < st.next ∧ a ∉ deletedList bsub ∧ a ∉ deletedList csub := by
      intro a ha
      rcases s4 a ha with q | q
      · exact ⟨hbl a (.inl (.inl q)), fun p => b3 a q a p rfl,
          fun p => hd a (.inl (.inl q)) (.inl (.inr p))⟩
      · exact ⟨hcl a (.inl (.inl q)), fun p => hd a (.inl (.inr p)) (.inl (.inl q)),
          fun p => c3 a q a p rfl⟩
    have hba : ba ∉ q1.map Prod.fst ∧ ba ∉ deletedList r1 := by
      have e1 : ba ∉ bsets.map Prod.fst := fun q => b4 ba (.inl q) ba rfl rfl
      have e2 : ba ∉ deletedList bsub := fun q => b4 ba (.inr q) ba rfl rfl
      have e3 := hd ba (.inr rfl)
      constructor
      · intro q
        rcases s4 ba q with q | q
        · exact e1 q
        · exact e3 (.inl (.inl q))
      · intro q
        rcases t5 ba q with q | q | q
        · exact e2 q
        · exact e3 (.inl (.inr q))
        · have := hbl ba (.inr rfl); omega
    refine ⟨?_, ?_, t3, ?_, ?_⟩
    · have hset : viewSets st'.heap q1 = viewSets q2 q1 := by
        apply viewSets_congr
        intro a ha
        obtain ⟨p1, p2, p3⟩ := sfree a ha
        exact t2 a p1 p2 p3
      rw [view_mk, view_mk, view_mk, hset, ← t1, Block.merge]
      congr 1
      rw [hc', hb']
      congr 1
      exact Prod.ext s1.symm rfl
    · intro a hlt h1 h2
      simp only [deleted, List.mem_append, List.mem_singleton, not_or] at h1 h2
      rw [t2 a hlt h1.1.2 h2.1.2, s2 a h1.1.1 h2.1.1]
    · simp only [deleted, List.nodup_append, List.mem_append, List.mem_singleton]
      refine ⟨⟨s3, t4, ?_⟩, by simp, ?_⟩
      · rintro a ha x hx rfl
        obtain ⟨p1, p2, p3⟩ := sfree a ha
        rcases t5 a hx with q | q | q
        · exact p2 q
        · exact p3 q
        · omega
      · rintro a ha x rfl rfl
        rcases ha with q | q
        · exact hba.1 q
        · exact hba.2 q
    · intro a ha
      simp only [deleted, List.mem_append, List.mem_singleton] at ha ⊢
      rcases ha with (q | q) | rfl
      · rcases s4 a q with q | q
        · exact .inl (.inl (.inl q))
        · exact .inr (.inl (.inl (.inl q)))
      · rcases t5 a q with q | q | q
        · exact .inl (.inl (.inr q))
        · exact .inr (.inl (.inl (.inr q)))
        · exact .inr (.inr q)
      · exact .inl (.inr rfl)

end HBlock
end Softlib.Config

namespace Softlib

open Softlib.Config Softlib.Config.HBlock

/-- C13 and C14 hold of the pointers: `Merge` on objects, with identities forgotten, is the
merge of values, although new settings are shared with the source.  No object outside the two
trees is written, and the merged tree consists of objects of the target, of the source and of
new ones, each once. -/
theorem C14_pointers (an : Bool) (c b : HBlock) (st : HSt) (h : (b.deleted ++ c.deleted).Nodup)
    (hlt : ∀ a ∈ b.deleted ++ c.deleted, a < st.next) :
    let r := HBlock.merge an c b st
    r.1.view r.2.heap = (Block.merge an (c.view st.heap) (b.view st.heap)).1 ∧
    (∀ a, a < st.next → a ∉ b.deleted ++ c.deleted → r.2.heap a = st.heap a) ∧
    r.1.deleted.Nodup ∧
    (∀ a ∈ r.1.deleted, a ∈ b.deleted ++ c.deleted ∨ (st.next ≤ a ∧ a < r.2.next)) := by
  rw [List.nodup_append] at h
  simp only [List.mem_append] at hlt
  obtain ⟨h1, h2, -, h4, h5⟩ := merge_view an c b st h.1 h.2.1 (fun a ha hc => h.2.2 a ha a hc rfl)
    (fun a ha => hlt a (.inl ha)) (fun a ha => hlt a (.inr ha))
  refine ⟨h1, ?_, h4, ?_⟩
  · intro a hl hn
    rw [List.mem_append, not_or] at hn
    exact h2 a hl hn.1 hn.2
  · intro a ha
    rw [List.mem_append, or_assoc]
    exact h5 a ha

/-- A target with `a = 1` and a source with `a = 2`, `b = 3`: the merged tree holds both. -/
example : let h : Heap := fun a => if a = 1 then ([['1']], true) else if a = 3 then ([['2']], false)
      else ([['3']], false)
    let b : HBlock := .mk 0 none 0 ['t'] [] [(1, ['a'])] []
    let c : HBlock := .mk 2 none 0 ['s'] [] [(3, ['a']), (4, ['b'])] []
    let r := HBlock.merge true c b ⟨h, 5⟩
    ((b.deleted ++ c.deleted).Nodup ∧ (∀ a ∈ b.deleted ++ c.deleted, a < 5)) ∧
    (r.1.view r.2.heap).settings = [⟨['a'], [['2']], true⟩, ⟨['b'], [['3']], false⟩] := by
  refine ⟨by decide, ?_⟩
  simp only [HBlock.merge]
  decide

end Softlib
