/-
C135: integrators can be copied and destroyed.
-/
import Verif.Integrator.CopyModel
import Mathlib.Data.List.Basic
import Mathlib.Order.Basic

namespace Softlib
open Softlib.Integrator Softlib.Integrator.Own

variable {V : Type}

/-! ### what is meant -/

/-- The integrators made so far: whether they still exist, and what they have stored. -/
abbrev Histories (V : Type) := List (Bool × List V)

/-- What an integrator that still exists has stored. -/
def Histories.of (s : Histories V) (k : Nat) : Option (List V) :=
  match s[k]? with
  | some (true, l) => some l
  | _ => none

/-- What each operation is meant to do.  Copies may be made of integrators that `allow` allows. -/
def intended (allow : List V → Bool) (s : Histories V) : Op V → Option (Histories V)
  | .create => some (s ++ [(true, [])])
  | .copy k => (s.of k).bind fun l => if allow l then some (s ++ [(true, l)]) else none
  | .store k _ v => (s.of k).map fun l => s.set k (true, l ++ [v])
  | .initial k _ v => (s.of k).map fun _ => s.set k (true, [v])
  | .destroy k => (s.of k).map fun l => s.set k (false, l)

/-- A program that uses no integrator that does not exist, and copies only those allowed. -/
def means (allow : List V → Bool) (ops : List (Op V)) : Option (Histories V) := ops.foldlM (intended allow) []

/-- Any copy is allowed. -/
def anyCopy : List V → Bool := fun _ => true

/-- Only integrators that have stored nothing are copied. -/
def emptyCopy : List V → Bool := List.isEmpty

theorem chunk_eq : chunk = 1000 := by unfold chunk; rfl

theorem chunk_succ : ∃ m, chunk = m + 1 := ⟨999, chunk_eq⟩

/-! ### one integrator -/

/-- The array of an integrator holds its history. -/
structure OwnHolds (m : Mem V) (o : Obj) (l : List V) : Prop where
  n : o.n = l.length
  room : o.n ≤ o.alloc
  null : o.cur = none → o.alloc = 0
  block : ∀ b, o.cur = some b → ∃ c, contents m b = some c ∧ c.length = o.alloc ∧ ∀ (i : Nat) (v : V), l[i]? = some v → c[i]? = some (some v)

theorem contents_lt {m : Mem V} {b : Nat} {c : List (Option V)} (h : contents m b = some c) : b < m.length := by
  by_contra hb
  rw [contents, List.getElem?_eq_none (by omega)] at h
  cases h

theorem contents_append {m x : Mem V} {b : Nat} (h : b < m.length) : contents (m ++ x) b = contents m b := by
  rw [contents, contents, List.getElem?_append_left h]

theorem contents_last (m : Mem V) (c : List (Option V)) : contents (m ++ [some c]) m.length = some c := by
  rw [contents, List.getElem?_append_right (Nat.le_refl _)]
  simp

theorem contents_set {m : Mem V} {b d : Nat} {x : Option (List (Option V))} (h : b < m.length) :
    contents (m.set b x) d = if d = b then x else contents m d := by
  unfold contents
  rw [List.getElem?_set]
  by_cases hd : d = b
  · subst hd
    rw [if_pos rfl, if_pos h, if_pos rfl]
    rfl
  · rw [if_neg (Ne.symm hd), if_neg hd]

theorem live_append (m : Mem V) (c : List (Option V)) : live (m ++ [some c]) = live m + 1 := by
  simp [live, List.countP_append]

theorem live_set {m : Mem V} {b : Nat} {c d : List (Option V)} (h : contents m b = some c) : live (m.set b (some d)) = live m := by
  induction m generalizing b with
  | nil => rfl
  | cons x m ih =>
    cases b with
    | zero =>
      have : x = some c := by simpa [contents] using h
      subst this
      rfl
    | succ b =>
      have h' : contents m b = some c := by simpa [contents] using h
      have := ih h'
      simp only [live, List.set_cons_succ, List.countP_cons] at this ⊢
      rw [this]

theorem live_release {m : Mem V} {b : Nat} {c d : List (Option V)} (h : contents m b = some c) :
    live (m.set b none ++ [some d]) = live m := by
  rw [live_append]
  induction m generalizing b with
  | nil => simp [contents] at h
  | cons x m ih =>
    cases b with
    | zero =>
      have : x = some c := by simpa [contents] using h
      subst this
      simp [live]
    | succ b =>
      have h' : contents m b = some c := by simpa [contents] using h
      have := ih h'
      simp only [live, List.set_cons_succ, List.countP_cons] at this ⊢
      omega

theorem resize_length (l : List (Option V)) {k : Nat} (h : l.length ≤ k) : (resize l k).length = k := by
  simp only [resize, List.length_append, List.length_take, List.length_replicate]
  omega

theorem resize_get (l : List (Option V)) {k i : Nat} {v : V} (h : l.length ≤ k) (hi : l[i]? = some (some v)) : (resize l k)[i]? = some (some v) := by
  have := (List.getElem?_eq_some_iff.mp hi).1
  rw [resize, List.take_of_length_le h, List.getElem?_append_left this, hi]

/-- Enlarging keeps the history. -/
theorem grow_spec {m : Mem V} {o : Obj} {l : List V} (h : OwnHolds m o l) (moved : Bool) :
    ∃ m' o' b, grow moved m o = some (m', o') ∧ OwnHolds m' o' l ∧ o'.cur = some b ∧ o'.n < o'.alloc ∧ b < m'.length ∧
      (o.cur = some b ∨ m.length ≤ b) ∧
      (∀ d, d < m.length → o.cur ≠ some d → contents m' d = contents m d) ∧ m.length ≤ m'.length ∧
      live m' = live m + (if o.cur = none then 1 else 0) := by
  have hch := chunk_eq
  obtain ⟨cur, n, alloc⟩ := o
  obtain ⟨hn, hroom, hnull, hblock⟩ := h
  simp only at hn hroom hnull hblock
  by_cases hg : alloc ≤ n
  · cases cur with
    | none =>
      have h0 : alloc = 0 := hnull rfl
      subst h0
      have hl : l = [] := List.length_eq_zero_iff.mp (by omega)
      subst hl
      refine ⟨_, _, m.length, by simp only [grow]; rw [if_pos hg], ⟨hn, (Nat.le_of_lt (by show n < 0 + chunk; rw [chunk_eq]; omega)), by simp, ?_⟩, rfl, (by show n < 0 + chunk; rw [chunk_eq]; omega), (by rw [List.length_append]; exact Nat.lt_succ_self _), .inr (Nat.le_refl _), ?_, (by rw [List.length_append]; exact Nat.le_add_right _ _), ?_⟩
      · rintro b hb
        cases hb
        exact ⟨_, contents_last _ _, List.length_replicate, fun i v hi => absurd hi (by simp)⟩
      · intro d hd _
        exact contents_append hd
      · rw [live_append]; simp
    | some b =>
      obtain ⟨c, hc, hlen, hpre⟩ := hblock b rfl
      have hb := contents_lt hc
      cases moved with
      | true =>
        refine ⟨_, _, m.length, by simp only [grow]; rw [if_pos hg, hc]; rfl, ⟨hn, by simp; omega, by simp, ?_⟩, rfl, by simp; omega, by simp, .inr (Nat.le_refl _), ?_, by simp, ?_⟩
        · rintro d hd
          cases hd
          refine ⟨resize c (alloc + chunk), ?_, resize_length _ (by omega), fun i v hi => resize_get _ (by omega) (hpre i v hi)⟩
          have := contents_last (m.set b none) (resize c (alloc + chunk))
          rwa [List.length_set] at this
        · intro d hd hne
          rw [contents_append (by simpa using hd), contents_set hb, if_neg]
          rintro rfl
          exact hne rfl
        · rw [live_release hc]; simp
      | false =>
        refine ⟨_, _, b, by simp only [grow]; rw [if_pos hg, hc]; rfl, ⟨hn, by simp; omega, by simp, ?_⟩, rfl, by simp; omega, by simpa using hb, .inl rfl, ?_, by simp, ?_⟩
        · rintro d hd
          cases hd
          refine ⟨resize c (alloc + chunk), ?_, resize_length _ (by omega), fun i v hi => resize_get _ (by omega) (hpre i v hi)⟩
          rw [contents_set hb, if_pos rfl]
        · intro d hd hne
          rw [contents_set hb, if_neg]
          rintro rfl
          exact hne rfl
        · rw [live_set hc]; simp
  · cases cur with
    | none => exact absurd (hnull rfl) (by omega)
    | some b =>
      obtain ⟨c, hc, hlen, hpre⟩ := hblock b rfl
      exact ⟨m, ⟨some b, n, alloc⟩, b, by simp only [grow]; rw [if_neg hg], ⟨hn, hroom, hnull, hblock⟩, rfl, by simp; omega, contents_lt hc,
        .inl rfl, fun _ _ _ => rfl, Nat.le_refl _, by simp⟩

theorem put_spec {m : Mem V} {o : Obj} {l : List V} {b : Nat} (h : OwnHolds m o l) (hb : o.cur = some b) (hr : o.n < o.alloc) (v : V) :
    ∃ m', put v m o = some (m', ⟨some b, o.n + 1, o.alloc⟩) ∧ OwnHolds m' ⟨some b, o.n + 1, o.alloc⟩ (l ++ [v]) ∧
      (∀ d, d ≠ b → contents m' d = contents m d) ∧ m'.length = m.length ∧ live m' = live m := by
  obtain ⟨cur, n, alloc⟩ := o
  obtain ⟨hn, hroom, hnull, hblock⟩ := h
  simp only at hn hroom hnull hblock hb hr
  subst hb
  obtain ⟨c, hc, hlen, hpre⟩ := hblock b rfl
  have hlt := contents_lt hc
  refine ⟨m.set b (some (c.set n (some v))), ?_, ⟨by simp [hn], by simp; omega, by simp, ?_⟩, ?_, by simp, live_set hc⟩
  · simp only [put]
    rw [hc]
    simp only
    rw [if_pos (by omega)]
  · rintro d hd
    cases hd
    refine ⟨_, by rw [contents_set hlt, if_pos rfl], by simpa using hlen, ?_⟩
    intro i w hi
    rw [List.getElem?_set]
    by_cases hin : n = i
    · subst hin
      rw [if_pos rfl, if_pos (by omega)]
      rw [hn, List.getElem?_append_right (Nat.le_refl _)] at hi
      simp at hi
      rw [hi]
    · rw [if_neg hin]
      apply hpre
      have hlt := (List.getElem?_eq_some_iff.mp hi).1
      rw [List.length_append, List.length_singleton] at hlt
      rwa [List.getElem?_append_left (by omega)] at hi
  · intro d hd
    rw [contents_set hlt, if_neg hd]

/-- Storing a step appends to the history. -/
theorem store_spec {m : Mem V} {o : Obj} {l : List V} (h : OwnHolds m o l) (moved : Bool) (v : V) :
    ∃ m' o' b, storeSol moved v m o = some (m', o') ∧ OwnHolds m' o' (l ++ [v]) ∧ o'.cur = some b ∧ b < m'.length ∧
      (o.cur = some b ∨ m.length ≤ b) ∧
      (∀ d, d < m.length → o.cur ≠ some d → contents m' d = contents m d) ∧ m.length ≤ m'.length ∧
      live m' = live m + (if o.cur = none then 1 else 0) := by
  obtain ⟨m1, o1, b, e1, h1, hb, hr, hlt, hor, hc1, hl1, hv1⟩ := grow_spec h moved
  obtain ⟨m2, e2, h2, hc2, hl2, hv2⟩ := put_spec h1 hb hr v
  refine ⟨m2, _, b, ?_, h2, rfl, by omega, hor, ?_, by omega, by omega⟩
  · rw [storeSol, e1]
    exact e2
  · intro d hd hne
    rw [hc2 d ?_, hc1 d hd hne]
    rintro rfl
    rcases hor with h | h
    · exact hne h
    · omega

/-- Starting afresh keeps the array. -/
theorem holds_reset {m : Mem V} {o : Obj} {l : List V} (h : OwnHolds m o l) : OwnHolds m { o with n := 0 } [] :=
  ⟨rfl, Nat.zero_le _, h.null, fun b hb => by
    obtain ⟨c, hc, hl, -⟩ := h.block b hb
    exact ⟨c, hc, hl, by simp⟩⟩

theorem holds_other {m m' : Mem V} {o : Obj} {l : List V} (h : OwnHolds m o l) (hc : ∀ b, o.cur = some b → contents m' b = contents m b) : OwnHolds m' o l :=
  ⟨h.n, h.room, h.null, fun b hb => by rw [hc b hb]; exact h.block b hb⟩

/-! ### all of them -/

/-- Every integrator, also those destroyed, has its own array, which holds its history; nothing else is allocated. -/
structure OwnMatches (w : World V) (s : Histories V) : Prop where
  length : w.objs.length = s.length
  holds : ∀ (k : Nat) a o a' l, w.objs[k]? = some (a, o) → s[k]? = some (a', l) → a = a' ∧ OwnHolds w.mem o l ∧ (o.cur = none ↔ l = [])
  apart : ∀ (j k : Nat) a o a' o' b, j ≠ k → w.objs[j]? = some (a, o) → w.objs[k]? = some (a', o') → o.cur = some b → o'.cur ≠ some b
  count : live w.mem = s.countP (fun x => !x.2.isEmpty)

theorem OwnMatches.lt {w : World V} {s : Histories V} (h : OwnMatches w s) {k : Nat} {a : Bool} {o : Obj} {b : Nat} (hk : w.objs[k]? = some (a, o)) (hb : o.cur = some b) :
    b < w.mem.length := by
  obtain ⟨hlt, -⟩ := List.getElem?_eq_some_iff.mp hk
  have hs : k < s.length := by rw [← h.length]; exact hlt
  obtain ⟨x, hx⟩ : ∃ x, s[k]? = some x := ⟨_, List.getElem?_eq_getElem hs⟩
  obtain ⟨-, hh, -⟩ := h.holds k a o x.1 x.2 hk hx
  obtain ⟨c, hc, -⟩ := hh.block b hb
  exact contents_lt hc

theorem of_some {s : Histories V} {k : Nat} {l : List V} (h : s.of k = some l) : s[k]? = some (true, l) := by
  unfold Histories.of at h
  split at h
  · rename_i e
    rw [e]
    cases h
    rfl
  · cases h

theorem obj_some {w : World V} {k : Nat} {o : Obj} (h : w.objs[k]? = some (true, o)) : w.obj k = some o := by
  rw [World.obj, h]

theorem OwnMatches.obj {w : World V} {s : Histories V} (h : OwnMatches w s) {k : Nat} {l : List V} (hk : s.of k = some l) :
    ∃ o, w.objs[k]? = some (true, o) ∧ w.obj k = some o ∧ OwnHolds w.mem o l ∧ (o.cur = none ↔ l = []) := by
  have hs := of_some hk
  obtain ⟨hlt, -⟩ := List.getElem?_eq_some_iff.mp hs
  obtain ⟨x, hx⟩ : ∃ x, w.objs[k]? = some x := ⟨_, List.getElem?_eq_getElem (by rw [h.length]; exact hlt)⟩
  obtain ⟨a, o⟩ := x
  obtain ⟨rfl, hh, hi⟩ := h.holds k _ _ _ _ hx hs
  exact ⟨o, hx, obj_some hx, hh, hi⟩

theorem countP_set_lt {α : Type} (p : α → Bool) : ∀ (s : List α) (k : Nat) (x y : α), s[k]? = some x →
    (s.set k y).countP p + (if p x then 1 else 0) = s.countP p + (if p y then 1 else 0)
  | [], _, _, _, h => by simp at h
  | z :: s, 0, x, y, h => by
    have : z = x := by simpa using h
    subst this
    simp only [List.set_cons_zero, List.countP_cons]
    omega
  | z :: s, k + 1, x, y, h => by
    have := countP_set_lt p s k x y (by simpa using h)
    simp only [List.set_cons_succ, List.countP_cons]
    omega

/-- One integrator is changed. -/
theorem OwnMatches.update {w : World V} {s : Histories V} (h : OwnMatches w s) {k : Nat} {o : Obj} {l l' : List V} (hw : w.objs[k]? = some (true, o))
    (hs : s[k]? = some (true, l)) {m' : Mem V} {o' : Obj} {b : Nat} (hh : OwnHolds m' o' l') (hb : o'.cur = some b) (hl' : l' ≠ [])
    (hor : o.cur = some b ∨ w.mem.length ≤ b) (hc : ∀ d, d < w.mem.length → o.cur ≠ some d → contents m' d = contents w.mem d)
    (hv : live m' = live w.mem + (if o.cur = none then 1 else 0)) (hi : o.cur = none ↔ l = []) :
    OwnMatches ⟨m', w.objs.set k (true, o')⟩ (s.set k (true, l')) := by
  have hk : k < w.objs.length := (List.getElem?_eq_some_iff.mp hw).1
  have hk' : k < s.length := by rw [← h.length]; exact hk
  refine ⟨by simp [h.length], ?_, ?_, ?_⟩
  · intro j a p a' q hj hj'
    simp only [List.getElem?_set] at hj hj'
    by_cases hjk : k = j
    · subst hjk
      rw [if_pos rfl, if_pos hk] at hj
      rw [if_pos rfl, if_pos hk'] at hj'
      cases hj
      cases hj'
      exact ⟨rfl, hh, by simp [hb, hl']⟩
    · rw [if_neg hjk] at hj hj'
      obtain ⟨e, hp, hq⟩ := h.holds j a p a' q hj hj'
      refine ⟨e, holds_other hp (fun d hd => hc d (h.lt hj hd) ?_), hq⟩
      intro he
      exact h.apart k j _ _ _ _ d hjk hw hj he hd
  · intro i j a p a' p' d hij hi1 hj1 hp hp'
    simp only [List.getElem?_set] at hi1 hj1
    by_cases hik : k = i
    · subst hik
      rw [if_pos rfl, if_pos hk] at hi1
      rw [if_neg hij] at hj1
      cases hi1
      rw [hb] at hp
      cases hp
      rcases hor with ho | ho
      · exact h.apart k j _ _ _ _ b hij hw hj1 ho hp'
      · have := h.lt hj1 hp'
        omega
    · rw [if_neg hik] at hi1
      by_cases hjk : k = j
      · subst hjk
        rw [if_pos rfl, if_pos hk] at hj1
        cases hj1
        rw [hb] at hp'
        cases hp'
        rcases hor with ho | ho
        · exact h.apart i k _ _ _ _ b hij hi1 hw hp ho
        · have := h.lt hi1 hp
          omega
      · rw [if_neg hjk] at hj1
        exact h.apart i j _ _ _ _ d hij hi1 hj1 hp hp'
  · have := countP_set_lt (fun x : Bool × List V => !x.2.isEmpty) s k (true, l) (true, l') hs
    simp only [hv, h.count]
    by_cases hl : l = []
    · rw [if_pos (hi.mpr hl)]
      subst hl
      simp [hl'] at this
      simpa using this.symm
    · rw [if_neg (fun e => hl (hi.mp e))]
      simp [hl, hl'] at this
      simpa using this.symm

theorem matches_new {w : World V} {s : Histories V} (h : OwnMatches w s) : OwnMatches ⟨w.mem, w.objs ++ [(true, ⟨none, 0, 0⟩)]⟩ (s ++ [(true, [])]) := by
  have hlast : ∀ k a (o : Obj), (w.objs ++ [(true, (⟨none, 0, 0⟩ : Obj))])[k]? = some (a, o) → w.objs[k]? = some (a, o) ∨ (k = w.objs.length ∧ a = true ∧ o = ⟨none, 0, 0⟩) := by
    intro k a o hk
    by_cases hlt : k < w.objs.length
    · rw [List.getElem?_append_left hlt] at hk
      exact .inl hk
    · have hle := (List.getElem?_eq_some_iff.mp hk).1
      rw [List.length_append, List.length_singleton] at hle
      have : k = w.objs.length := by omega
      subst this
      rw [List.getElem?_append_right (Nat.le_refl _)] at hk
      simp at hk
      exact .inr ⟨rfl, hk.1, hk.2.symm⟩
  refine ⟨by simp [h.length], ?_, ?_, ?_⟩
  · intro k a o a' l hk hk'
    rcases hlast k a o hk with hk | ⟨rfl, rfl, rfl⟩
    · have hlt := (List.getElem?_eq_some_iff.mp hk).1
      rw [List.getElem?_append_left (by rw [← h.length]; exact hlt)] at hk'
      exact h.holds k a o a' l hk hk'
    · rw [List.getElem?_append_right (Nat.le_of_eq h.length.symm), h.length] at hk'
      simp at hk'
      obtain ⟨rfl, rfl⟩ := hk'
      exact ⟨rfl, ⟨rfl, Nat.le_refl _, fun _ => rfl, by simp⟩, by simp⟩
  · intro j k a o a' o' b hjk hj hk hb hb'
    rcases hlast j a o hj with hj | ⟨rfl, rfl, rfl⟩
    · rcases hlast k a' o' hk with hk | ⟨rfl, rfl, rfl⟩
      · exact h.apart j k _ _ _ _ b hjk hj hk hb hb'
      · cases hb'
    · cases hb
  · simp [List.countP_append, h.count]

theorem matches_gone {w : World V} {s : Histories V} (h : OwnMatches w s) {k : Nat} {o : Obj} {l : List V} (hw : w.objs[k]? = some (true, o))
    (hs : s[k]? = some (true, l)) : OwnMatches ⟨w.mem, w.objs.set k (false, o)⟩ (s.set k (false, l)) := by
  have hk : k < w.objs.length := (List.getElem?_eq_some_iff.mp hw).1
  have hk' : k < s.length := by rw [← h.length]; exact hk
  have hset : ∀ (j : Nat) a (p : Obj), (w.objs.set k (false, o))[j]? = some (a, p) → ∃ a', w.objs[j]? = some (a', p) := by
    intro j a p hj
    rw [List.getElem?_set] at hj
    by_cases hjk : k = j
    · subst hjk
      rw [if_pos rfl, if_pos hk] at hj
      cases hj
      exact ⟨_, hw⟩
    · rw [if_neg hjk] at hj
      exact ⟨_, hj⟩
  refine ⟨by simp [h.length], ?_, ?_, ?_⟩
  · intro j a p a' q hj hj'
    simp only [List.getElem?_set] at hj hj'
    by_cases hjk : k = j
    · subst hjk
      rw [if_pos rfl, if_pos hk] at hj
      rw [if_pos rfl, if_pos hk'] at hj'
      cases hj
      cases hj'
      exact ⟨rfl, (h.holds k _ _ _ _ hw hs).2⟩
    · rw [if_neg hjk] at hj hj'
      exact h.holds j a p a' q hj hj'
  · intro i j a p a' p' d hij hi1 hj1 hp hp'
    obtain ⟨_, h1⟩ := hset _ _ _ hi1
    obtain ⟨_, h2⟩ := hset _ _ _ hj1
    exact h.apart i j _ _ _ _ d hij h1 h2 hp hp'
  · have := countP_set_lt (fun x : Bool × List V => !x.2.isEmpty) s k (true, l) (false, l) hs
    simp only at this
    show live w.mem = _
    rw [h.count]
    omega

theorem step_matches {w : World V} {s s' : Histories V} (h : OwnMatches w s) (op : Op V) (hop : intended emptyCopy s op = some s') :
    ∃ w', Own.step w op = some w' ∧ OwnMatches w' s' := by
  cases op with
  | create =>
    simp only [intended, Option.some.injEq] at hop
    subst hop
    refine ⟨_, rfl, ?_⟩
    exact matches_new h
  | copy k =>
    simp only [intended] at hop
    cases hk : s.of k with
    | none => rw [hk] at hop; cases hop
    | some l =>
      rw [hk] at hop
      simp only [Option.bind_some, emptyCopy] at hop
      cases l with
      | cons x l => simp at hop
      | nil =>
        simp at hop
        subst hop
        obtain ⟨o, hw, ho, hh, hi⟩ := h.obj hk
        refine ⟨_, by simp only [Own.step]; rw [ho]; rfl, ?_⟩
        have e : o = ⟨none, 0, 0⟩ := by
          have h1 := hi.mpr rfl
          have h2 := hh.n
          have h3 := hh.null h1
          obtain ⟨c, n, al⟩ := o
          simp at h1 h2 h3
          simp [h1, h2, h3]
        rw [e]
        exact matches_new h
  | store k moved v =>
    simp only [intended] at hop
    cases hk : s.of k with
    | none => rw [hk] at hop; cases hop
    | some l =>
      rw [hk] at hop
      simp only [Option.map_some, Option.some.injEq] at hop
      subst hop
      obtain ⟨o, hw, ho, hh, hi⟩ := h.obj hk
      obtain ⟨m', o', b, e, hh', hb, -, hor, hc, -, hv⟩ := store_spec hh moved v
      refine ⟨_, by simp only [Own.step]; rw [ho, Option.bind_some, e]; rfl, ?_⟩
      exact h.update hw (of_some hk) hh' hb (by simp) hor hc hv hi
  | initial k moved v =>
    simp only [intended] at hop
    cases hk : s.of k with
    | none => rw [hk] at hop; cases hop
    | some l =>
      rw [hk] at hop
      simp only [Option.map_some, Option.some.injEq] at hop
      subst hop
      obtain ⟨o, hw, ho, hh, hi⟩ := h.obj hk
      obtain ⟨m', o', b, e, hh', hb, -, hor, hc, -, hv⟩ := store_spec (holds_reset hh) moved v
      refine ⟨_, by simp only [Own.step]; rw [ho, Option.bind_some, e]; rfl, ?_⟩
      exact h.update hw (of_some hk) hh' hb (by simp) hor hc hv hi
  | destroy k =>
    simp only [intended] at hop
    cases hk : s.of k with
    | none => rw [hk] at hop; cases hop
    | some l =>
      rw [hk] at hop
      simp only [Option.map_some, Option.some.injEq] at hop
      subst hop
      obtain ⟨o, hw, ho, hh, hi⟩ := h.obj hk
      refine ⟨_, by simp only [Own.step]; rw [ho]; rfl, ?_⟩
      exact matches_gone h hw (of_some hk)

theorem run_matches : ∀ (ops : List (Op V)) {w : World V} {s s' : Histories V}, OwnMatches w s → ops.foldlM (intended emptyCopy) s = some s' →
    ∃ w', Own.run w ops = some w' ∧ OwnMatches w' s'
  | [], w, s, s', h, he => by
    cases he
    exact ⟨w, rfl, h⟩
  | op :: ops, w, s, s', h, he => by
    rw [List.foldlM_cons] at he
    cases h1 : intended emptyCopy s op with
    | none => rw [h1] at he; cases he
    | some s1 =>
      rw [h1] at he
      obtain ⟨w1, e1, m1⟩ := step_matches h op h1
      obtain ⟨w2, e2, m2⟩ := run_matches ops m1 he
      refine ⟨w2, ?_, m2⟩
      rw [Own.run, List.foldlM_cons, e1]
      exact e2

theorem matches_start : OwnMatches (World.start : World V) [] :=
  ⟨rfl, by simp [World.start], by simp [World.start], rfl⟩

theorem OwnMatches.reads {w : World V} {s : Histories V} (h : OwnMatches w s) {k : Nat} {l : List V} (hk : s.of k = some l) :
    w.steps k = some l.length ∧ ∀ i v, l[i]? = some v → w.read k i = some (some v) := by
  obtain ⟨o, hw, ho, hh, hi⟩ := h.obj hk
  refine ⟨by rw [World.steps, ho, Option.map_some, hh.n], ?_⟩
  intro i v hv
  cases hc : o.cur with
  | none =>
    rw [hi.mp hc] at hv
    simp at hv
  | some b =>
    obtain ⟨c, hc', -, hp⟩ := hh.block b hc
    rw [World.read, ho, Option.bind_some, hc, Option.bind_some, hc', Option.bind_some]
    exact hp i v hv

/-- C135: as long as only integrators that have stored nothing are copied, nothing is undefined, and every integrator that exists has just
the steps that were stored in it.
Missing: copies of integrators that have stored something, see `C135_refuted_overwritten` and `C135_refuted_released`. -/
theorem C135_careful_partial (ops : List (Op V)) (s : Histories V) (h : means emptyCopy ops = some s) :
    ∃ w, Own.run World.start ops = some w ∧
      ∀ k l, s.of k = some l → w.steps k = some l.length ∧ ∀ i v, l[i]? = some v → w.read k i = some (some v) := by
  obtain ⟨w, e, m⟩ := run_matches ops matches_start h
  exact ⟨w, e, fun k l hk => m.reads hk⟩

/-- C135: what is left in memory, exactly: one array of each kind for every integrator that ever stored something, destroyed or not. -/
theorem C135_left (ops : List (Op V)) (s : Histories V) (h : means emptyCopy ops = some s) :
    ∃ w, Own.run World.start ops = some w ∧ live w.mem = s.countP (fun x => !x.2.isEmpty) := by
  obtain ⟨w, e, m⟩ := run_matches ops matches_start h
  exact ⟨w, e, m.count⟩

/-! ### nothing is ever released -/

theorem grow_live {moved : Bool} {m m' : Mem V} {o o' : Obj} (h : grow moved m o = some (m', o')) : live m ≤ live m' := by
  obtain ⟨cur, n, alloc⟩ := o
  simp only [grow] at h
  by_cases hg : alloc ≤ n
  · rw [if_pos hg] at h
    cases cur with
    | none =>
      cases h
      rw [live_append]
      omega
    | some b =>
      simp only at h
      cases hc : contents m b with
      | none => rw [hc] at h; cases h
      | some l =>
        rw [hc] at h
        cases moved with
        | true => cases h; exact Nat.le_of_eq (live_release hc).symm
        | false => cases h; exact Nat.le_of_eq (live_set hc).symm
  · rw [if_neg hg] at h
    cases h
    exact Nat.le_refl _

theorem put_live {v : V} {m m' : Mem V} {o o' : Obj} (h : put v m o = some (m', o')) : live m ≤ live m' := by
  obtain ⟨cur, n, alloc⟩ := o
  cases cur with
  | none => cases h
  | some b =>
    simp only [put] at h
    cases hc : contents m b with
    | none => rw [hc] at h; cases h
    | some l =>
      rw [hc] at h
      simp only at h
      split at h
      · cases h; exact Nat.le_of_eq (live_set hc).symm
      · cases h

theorem storeSol_live {moved : Bool} {v : V} {m : Mem V} {o : Obj} {q : Mem V × Obj} (h : storeSol moved v m o = some q) : live m ≤ live q.1 := by
  rw [storeSol] at h
  cases hg : grow moved m o with
  | none => rw [hg] at h; cases h
  | some r =>
    rw [hg, Option.bind_some] at h
    exact Nat.le_trans (grow_live (o' := r.2) hg) (put_live (m' := q.1) (o' := q.2) h)

theorem step_live {w w' : World V} {op : Op V} (h : Own.step w op = some w') : live w.mem ≤ live w'.mem := by
  cases op with
  | create => cases h; exact Nat.le_refl _
  | copy k =>
    simp only [Own.step] at h
    cases ho : w.obj k with
    | none => rw [ho] at h; cases h
    | some o => rw [ho] at h; cases h; exact Nat.le_refl _
  | destroy k =>
    simp only [Own.step] at h
    cases ho : w.obj k with
    | none => rw [ho] at h; cases h
    | some o => rw [ho] at h; cases h; exact Nat.le_refl _
  | store k moved v =>
    simp only [Own.step] at h
    cases ho : w.obj k with
    | none => rw [ho] at h; cases h
    | some o =>
      rw [ho, Option.bind_some] at h
      cases hq : storeSol moved v w.mem o with
      | none => rw [hq] at h; cases h
      | some q => rw [hq] at h; cases h; exact storeSol_live hq
  | initial k moved v =>
    simp only [Own.step] at h
    cases ho : w.obj k with
    | none => rw [ho] at h; cases h
    | some o =>
      rw [ho, Option.bind_some] at h
      cases hq : storeSol moved v w.mem { o with n := 0 } with
      | none => rw [hq] at h; cases h
      | some q => rw [hq] at h; cases h; exact storeSol_live hq

/-- C135, refuted: whatever is done, destroying integrators included, the number of arrays in memory never falls. -/
theorem C135_refuted_leak : ∀ (ops : List (Op V)) (w w' : World V), Own.run w ops = some w' → live w.mem ≤ live w'.mem
  | [], w, w', h => by cases h; exact Nat.le_refl _
  | op :: ops, w, w', h => by
    rw [Own.run, List.foldlM_cons] at h
    cases h1 : Own.step w op with
    | none => rw [h1] at h; cases h
    | some w1 =>
      rw [h1] at h
      exact Nat.le_trans (step_live h1) (C135_refuted_leak ops w1 w' h)

/-! ### copies -/

/-- The state of an integrator that has stored `l`, with an array of its own. -/
theorem storeSol_room {m : Mem V} {b n alloc : Nat} {c : List (Option V)} (hc : contents m b = some c) (hn : n < alloc) (hl : n < c.length) (moved : Bool) (v : V) :
    storeSol moved v m ⟨some b, n, alloc⟩ = some (m.set b (some (c.set n (some v))), ⟨some b, n + 1, alloc⟩) := by
  simp only [storeSol, grow]
  rw [if_neg (by omega), Option.bind_some]
  simp only [put]
  rw [hc]
  simp only
  rw [if_pos hl]

/-- C135, refuted: a step stored in a copy replaces the step of the same number of the original, whenever the array has room. -/
theorem C135_refuted_overwritten (w : World V) (k b n alloc : Nat) (c : List (Option V)) (hk : w.obj k = some ⟨some b, n, alloc⟩)
    (hc : contents w.mem b = some c) (hl : c.length = alloc) (hn : n < alloc) (v v' : V) (moved moved' : Bool) :
    ∃ w', Own.run w [.copy k, .store k moved v, .store w.objs.length moved' v'] = some w' ∧ w'.steps k = some (n + 1) ∧ w'.read k n = some (some v') := by
  have hk' : w.objs[k]? = some (true, ⟨some b, n, alloc⟩) := by
    unfold World.obj at hk
    split at hk
    · rename_i e; rw [e]; cases hk; rfl
    · cases hk
  have hlt := (List.getElem?_eq_some_iff.mp hk').1
  have hb := contents_lt hc
  have s1 : Own.step w (.copy k) = some ⟨w.mem, w.objs ++ [(true, ⟨some b, n, alloc⟩)]⟩ := by
    simp only [Own.step]; rw [hk]; rfl
  have s2 : Own.step ⟨w.mem, w.objs ++ [(true, ⟨some b, n, alloc⟩)]⟩ (.store k moved v) =
      some ⟨w.mem.set b (some (c.set n (some v))), (w.objs ++ [(true, (⟨some b, n, alloc⟩ : Obj))]).set k (true, ⟨some b, n + 1, alloc⟩)⟩ := by
    simp only [Own.step]
    rw [obj_some (w := ⟨w.mem, w.objs ++ [(true, (⟨some b, n, alloc⟩ : Obj))]⟩) (k := k) (o := ⟨some b, n, alloc⟩)
      (by simp only; rw [List.getElem?_append_left hlt]; exact hk'), Option.bind_some, storeSol_room hc hn (by omega)]
    rfl
  have hc2 : contents (w.mem.set b (some (c.set n (some v)))) b = some (c.set n (some v)) := by rw [contents_set hb, if_pos rfl]
  have s3 : Own.step ⟨w.mem.set b (some (c.set n (some v))), (w.objs ++ [(true, (⟨some b, n, alloc⟩ : Obj))]).set k (true, ⟨some b, n + 1, alloc⟩)⟩
      (.store w.objs.length moved' v') = some ⟨(w.mem.set b (some (c.set n (some v)))).set b (some ((c.set n (some v)).set n (some v'))),
        ((w.objs ++ [(true, (⟨some b, n, alloc⟩ : Obj))]).set k (true, ⟨some b, n + 1, alloc⟩)).set w.objs.length (true, ⟨some b, n + 1, alloc⟩)⟩ := by
    simp only [Own.step]
    rw [obj_some (w := ⟨w.mem.set b (some (c.set n (some v))), (w.objs ++ [(true, (⟨some b, n, alloc⟩ : Obj))]).set k (true, ⟨some b, n + 1, alloc⟩)⟩)
      (k := w.objs.length) (o := ⟨some b, n, alloc⟩)
      (by simp only; rw [List.getElem?_set_ne (by omega), List.getElem?_append_right (Nat.le_refl _)]; simp), Option.bind_some,
      storeSol_room hc2 hn (by simp; omega)]
    rfl
  refine ⟨_, by simp only [Own.run, List.foldlM_cons, List.foldlM_nil, s1, s2, s3, Option.bind_eq_bind, Option.bind_some]; rfl, ?_, ?_⟩
  · rw [World.steps, obj_some (o := ⟨some b, n + 1, alloc⟩)]
    · rfl
    · simp only
      rw [List.getElem?_set_ne (by omega), List.getElem?_set, if_pos rfl, if_pos (by simp; omega)]
  · rw [World.read, obj_some (o := ⟨some b, n + 1, alloc⟩)]
    · simp only [Option.bind_some]
      rw [contents_set (by simpa using hb), if_pos rfl, Option.bind_some, List.getElem?_set, if_pos rfl, if_pos (by simp; omega)]
    · simp only
      rw [List.getElem?_set_ne (by omega), List.getElem?_set, if_pos rfl, if_pos (by simp; omega)]

/-- C135, refuted: if the array is full, and moves when the original stores a step, reading anything from the copy is undefined, and so is
storing a step in it. -/
theorem C135_refuted_released (w : World V) (k b n : Nat) (c : List (Option V)) (hk : w.obj k = some ⟨some b, n, n⟩)
    (hc : contents w.mem b = some c) (hl : c.length = n) (v : V) :
    ∃ w', Own.run w [.copy k, .store k true v] = some w' ∧ w'.steps w.objs.length = some n ∧ (∀ i, w'.read w.objs.length i = none) ∧
      ∀ moved v', Own.step w' (.store w.objs.length moved v') = none := by
  have hk' : w.objs[k]? = some (true, ⟨some b, n, n⟩) := by
    unfold World.obj at hk
    split at hk
    · rename_i e; rw [e]; cases hk; rfl
    · cases hk
  have hlt := (List.getElem?_eq_some_iff.mp hk').1
  have hb := contents_lt hc
  have s1 : Own.step w (.copy k) = some ⟨w.mem, w.objs ++ [(true, ⟨some b, n, n⟩)]⟩ := by
    simp only [Own.step]; rw [hk]; rfl
  have hg : ∃ m', storeSol true v w.mem ⟨some b, n, n⟩ = some (m', ⟨some w.mem.length, n + 1, n + chunk⟩) ∧ contents m' b = none := by
    simp only [storeSol, grow]
    rw [if_pos (Nat.le_refl _), hc]
    simp only [if_true, Option.bind_some, put]
    have h1 := contents_last (w.mem.set b none) (resize c (n + chunk))
    rw [List.length_set] at h1
    rw [h1]
    simp only
    rw [if_pos (by rw [resize_length c (by omega), chunk_eq]; omega)]
    refine ⟨_, rfl, ?_⟩
    rw [contents_set (by simp), if_neg (by omega), contents_append (by simpa using hb), contents_set hb, if_pos rfl]
  obtain ⟨m', e, hnone⟩ := hg
  have s2 : Own.step ⟨w.mem, w.objs ++ [(true, ⟨some b, n, n⟩)]⟩ (.store k true v) =
      some ⟨m', (w.objs ++ [(true, (⟨some b, n, n⟩ : Obj))]).set k (true, ⟨some w.mem.length, n + 1, n + chunk⟩)⟩ := by
    simp only [Own.step]
    rw [obj_some (w := ⟨w.mem, w.objs ++ [(true, (⟨some b, n, n⟩ : Obj))]⟩) (k := k) (o := ⟨some b, n, n⟩)
      (by simp only; rw [List.getElem?_append_left hlt]; exact hk'), Option.bind_some, e]
    rfl
  have ho : (⟨m', (w.objs ++ [(true, (⟨some b, n, n⟩ : Obj))]).set k (true, ⟨some w.mem.length, n + 1, n + chunk⟩)⟩ : World V).obj w.objs.length = some ⟨some b, n, n⟩ := by
    apply obj_some
    simp only
    rw [List.getElem?_set_ne (by omega), List.getElem?_append_right (Nat.le_refl _)]
    simp
  refine ⟨_, by simp only [Own.run, List.foldlM_cons, List.foldlM_nil, s1, s2, Option.bind_eq_bind, Option.bind_some]; rfl, ?_, ?_, ?_⟩
  · rw [World.steps, ho]; rfl
  · intro i
    rw [World.read, ho]
    simp only [Option.bind_some]
    rw [hnone]
    rfl
  · intro moved v'
    simp only [Own.step]
    rw [ho]
    simp only [Option.bind_some, storeSol, grow]
    rw [if_pos (Nat.le_refl _), hnone]
    rfl

theorem stores_room : ∀ (vs : List (Bool × V)) (w : World V) (k b n alloc : Nat) (c : List (Option V)), w.objs[k]? = some (true, ⟨some b, n, alloc⟩) →
    contents w.mem b = some c → c.length = alloc → n + vs.length ≤ alloc →
    ∃ w' c', Own.run w (vs.map fun x => .store k x.1 x.2) = some w' ∧ w'.objs = w.objs.set k (true, ⟨some b, n + vs.length, alloc⟩) ∧
      contents w'.mem b = some c' ∧ c'.length = alloc ∧ (∀ i, i < n → c'[i]? = c[i]?) ∧ ∀ (j : Nat) (x : Bool × V), vs[j]? = some x → c'[n + j]? = some (some x.2)
  | [], w, k, b, n, alloc, c, hk, hc, hl, _ => by
    refine ⟨w, c, rfl, ?_, hc, hl, fun _ _ => rfl, by simp⟩
    simp only [List.length_nil, Nat.add_zero]
    have hlt := (List.getElem?_eq_some_iff.mp hk).1
    apply List.ext_getElem?
    intro j
    rw [List.getElem?_set]
    by_cases hj : k = j
    · subst hj
      rw [if_pos rfl, if_pos hlt, hk]
    · rw [if_neg hj]
  | x :: vs, w, k, b, n, alloc, c, hk, hc, hl, hr => by
    rw [List.length_cons] at hr
    have hb := contents_lt hc
    have hlt := (List.getElem?_eq_some_iff.mp hk).1
    have hs : Own.step w (.store k x.1 x.2) = some ⟨w.mem.set b (some (c.set n (some x.2))), w.objs.set k (true, ⟨some b, n + 1, alloc⟩)⟩ := by
      simp only [Own.step]
      rw [obj_some hk, Option.bind_some, storeSol_room hc (by omega) (by omega)]
      rfl
    obtain ⟨w', c', e, ho, hc', hl', h1, h2⟩ := stores_room vs ⟨w.mem.set b (some (c.set n (some x.2))), w.objs.set k (true, ⟨some b, n + 1, alloc⟩)⟩
      k b (n + 1) alloc (c.set n (some x.2)) (by simp only; rw [List.getElem?_set, if_pos rfl, if_pos hlt])
      (by rw [contents_set hb, if_pos rfl]) (by simpa using hl) (by omega)
    refine ⟨w', c', ?_, ?_, hc', hl', ?_, ?_⟩
    · rw [List.map_cons, Own.run, List.foldlM_cons, hs]
      exact e
    · rw [ho, List.set_set, List.length_cons]
      congr 3
      omega
    · intro i hi
      rw [h1 i (by omega), List.getElem?_set_ne (by omega)]
    · intro j y hj
      cases j with
      | zero =>
        simp only [List.getElem?_cons_zero, Option.some.injEq] at hj
        subst hj
        rw [Nat.add_zero, h1 n (by omega), List.getElem?_set, if_pos rfl, if_pos (by omega)]
      | succ j =>
        rw [List.getElem?_cons_succ] at hj
        rw [show n + (j + 1) = n + 1 + j by omega]
        exact h2 j y hj

/-- C135: a copy that is only read keeps its steps while the original goes on, as long as there is room in the array.
Missing: after that, see `C135_refuted_released`. -/
theorem C135_reader_partial (w : World V) (k b n alloc : Nat) (c : List (Option V)) (hk : w.objs[k]? = some (true, ⟨some b, n, alloc⟩))
    (hc : contents w.mem b = some c) (hl : c.length = alloc) (vs : List (Bool × V)) (hr : n + vs.length ≤ alloc) :
    ∃ w', Own.run w (.copy k :: vs.map fun x => .store k x.1 x.2) = some w' ∧ w'.steps w.objs.length = some n ∧ w'.steps k = some (n + vs.length) ∧
      (∀ i, i < n → w'.read w.objs.length i = w.read k i ∧ w'.read k i = w.read k i) ∧
      ∀ (j : Nat) (x : Bool × V), vs[j]? = some x → w'.read k (n + j) = some (some x.2) := by
  have hlt := (List.getElem?_eq_some_iff.mp hk).1
  have s1 : Own.step w (.copy k) = some ⟨w.mem, w.objs ++ [(true, ⟨some b, n, alloc⟩)]⟩ := by
    simp only [Own.step]; rw [obj_some hk]; rfl
  obtain ⟨w', c', e, ho, hc', -, h1, h2⟩ := stores_room vs ⟨w.mem, w.objs ++ [(true, ⟨some b, n, alloc⟩)]⟩ k b n alloc c
    (by simp only; rw [List.getElem?_append_left hlt]; exact hk) hc hl hr
  have o1 : w'.obj k = some ⟨some b, n + vs.length, alloc⟩ := by
    apply obj_some
    rw [ho]
    simp only
    rw [List.getElem?_set, if_pos rfl, if_pos (by simp; omega)]
  have o2 : w'.obj w.objs.length = some ⟨some b, n, alloc⟩ := by
    apply obj_some
    rw [ho]
    simp only
    rw [List.getElem?_set_ne (by omega), List.getElem?_append_right (Nat.le_refl _)]
    simp
  have o0 : w.obj k = some ⟨some b, n, alloc⟩ := obj_some hk
  refine ⟨w', ?_, ?_, ?_, ?_, ?_⟩
  · rw [Own.run, List.foldlM_cons, s1]
    exact e
  · rw [World.steps, o2]; rfl
  · rw [World.steps, o1]; rfl
  · intro i hi
    rw [World.read, World.read, World.read, o0, o1, o2]
    simp only [Option.bind_some]
    rw [hc, hc', Option.bind_some, Option.bind_some]
    exact ⟨h1 i hi, h1 i hi⟩
  · intro j x hj
    rw [World.read, o1]
    simp only [Option.bind_some]
    rw [hc', Option.bind_some]
    exact h2 j x hj

theorem run_append (w : World V) (a b : List (Op V)) : Own.run w (a ++ b) = (Own.run w a).bind fun w' => Own.run w' b := by
  rw [Own.run, List.foldlM_append]
  rfl

/-- The first step. -/
theorem first_store (v : V) (moved : Bool) : storeSol moved v [] ⟨none, 0, 0⟩ = some ([some ((List.replicate chunk none).set 0 (some v))], ⟨some 0, 1, chunk⟩) := by
  have hp : 0 < chunk := by rw [chunk_eq]; omega
  simp only [storeSol, grow, Nat.le_refl, if_true, Option.bind_some, put, List.length_nil, List.nil_append, Nat.zero_add]
  rw [show contents [some (List.replicate chunk (none : Option V))] 0 = some (List.replicate chunk none) from rfl]
  simp only [List.length_replicate]
  rw [if_pos hp]
  rfl

/-- An integrator with an initial value. -/
theorem first_run (v : V) (moved : Bool) : Own.run World.start [.create, .initial 0 moved v] =
    some ⟨[some ((List.replicate chunk none).set 0 (some v))], [(true, ⟨some 0, 1, chunk⟩)]⟩ := by
  have s1 : Own.step (⟨[], [(true, ⟨none, 0, 0⟩)]⟩ : World V) (.initial 0 moved v) =
      some ⟨[some ((List.replicate chunk none).set 0 (some v))], [(true, ⟨some 0, 1, chunk⟩)]⟩ := by
    simp only [Own.step]
    rw [obj_some (o := ⟨none, 0, 0⟩) rfl, Option.bind_some, first_store]
    rfl
  rw [Own.run, List.foldlM_cons]
  show List.foldlM Own.step ⟨[], [(true, ⟨none, 0, 0⟩)]⟩ _ = _
  rw [List.foldlM_cons, s1]
  rfl

/-- C135, refuted: there is a program that copies an integrator, stores a step in both, and finds the step of the copy in the original. -/
theorem C135_refuted (a b c : V) : ∃ ops s w, means anyCopy ops = some s ∧ Own.run World.start ops = some w ∧ s.of 0 = some [a, b] ∧ w.read 0 1 = some (some c) := by
  have hp : 1 < chunk := by rw [chunk_eq]; omega
  obtain ⟨w, e, -, h⟩ := C135_refuted_overwritten (⟨[some ((List.replicate chunk none).set 0 (some a))], [(true, ⟨some 0, 1, chunk⟩)]⟩ : World V) 0 0 1 chunk _
    (obj_some rfl) rfl (by rw [List.length_set, List.length_replicate]) hp b c false false
  refine ⟨[.create, .initial 0 false a] ++ [.copy 0, .store 0 false b, .store 1 false c], _, w, rfl, ?_, rfl, h⟩
  rw [run_append, first_run, Option.bind_some]
  exact e

/-- After a thousand steps the array is full. -/
theorem thousand (v : V) : ∃ (w : World V) (c : List (Option V)), Own.run World.start (.create :: List.replicate chunk (.store 0 false v)) = some w ∧
    w.objs = [(true, ⟨some 0, chunk, chunk⟩)] ∧ contents w.mem 0 = some c ∧ c.length = chunk := by
  obtain ⟨m, hm⟩ := chunk_succ
  have s1 : Own.step (⟨[], [(true, ⟨none, 0, 0⟩)]⟩ : World V) (.store 0 false v) =
      some ⟨[some ((List.replicate chunk none).set 0 (some v))], [(true, ⟨some 0, 1, chunk⟩)]⟩ := by
    simp only [Own.step]
    rw [obj_some (o := ⟨none, 0, 0⟩) rfl, Option.bind_some, first_store]
    rfl
  obtain ⟨w, c, e, ho, hc, hl, -⟩ := stores_room (List.replicate m (false, v)) ⟨[some ((List.replicate chunk none).set 0 (some v))], [(true, ⟨some 0, 1, chunk⟩)]⟩
    0 0 1 chunk _ rfl rfl (by rw [List.length_set, List.length_replicate]) (by rw [List.length_replicate]; omega)
  rw [List.map_replicate] at e
  rw [List.length_replicate, show 1 + m = chunk by omega] at ho
  refine ⟨w, c, ?_, ho, hc, hl⟩
  rw [show List.replicate chunk (Op.store 0 false v) = Op.store 0 false v :: List.replicate m (Op.store 0 false v) by rw [hm]; rfl]
  rw [Own.run, List.foldlM_cons]
  show List.foldlM Own.step ⟨[], [(true, ⟨none, 0, 0⟩)]⟩ _ = _
  rw [List.foldlM_cons, s1]
  exact e

theorem means_stores (v : V) : ∀ (n : Nat) (l : List V), List.foldlM (intended anyCopy) [(true, l)] (List.replicate n (.store 0 false v)) = some [(true, l ++ List.replicate n v)]
  | 0, l => by simp [List.replicate]
  | n + 1, l => by
    rw [List.replicate_succ, List.foldlM_cons]
    show List.foldlM (intended anyCopy) [(true, l ++ [v])] _ = _
    rw [means_stores v n (l ++ [v]), List.append_assoc]
    rfl

theorem means_program (v : V) (n : Nat) (moved : Bool) :
    (means anyCopy (.create :: List.replicate n (.store 0 false v) ++ [.copy 0, .store 0 true v] ++ [.store 1 moved v])).isSome := by
  rw [means, List.foldlM_append, List.foldlM_append, List.foldlM_cons]
  show (((List.foldlM (intended anyCopy) [(true, [])] (List.replicate n (.store 0 false v))).bind _).bind _).isSome = true
  rw [means_stores]
  rfl

/-- C135, refuted: and one that is undefined: a thousand and one steps in the original, one in the copy. -/
theorem C135_refuted_undefined (v : V) (moved : Bool) : ∃ ops : List (Op V), (means anyCopy ops).isSome ∧ Own.run World.start ops = none := by
  refine ⟨.create :: List.replicate chunk (.store 0 false v) ++ [.copy 0, .store 0 true v] ++ [.store 1 moved v], ?_, ?_⟩
  · exact means_program v chunk moved
  · obtain ⟨w, c, e, ho, hc, hl⟩ := thousand v
    have hk : w.obj 0 = some ⟨some 0, chunk, chunk⟩ := obj_some (by rw [ho]; rfl)
    obtain ⟨w', e', -, -, h⟩ := C135_refuted_released w 0 0 chunk c hk hc hl v
    have hlen : w.objs.length = 1 := by rw [ho]; rfl
    rw [hlen] at h
    rw [run_append, run_append, e, Option.bind_some, e', Option.bind_some]
    simp only [Own.run, List.foldlM_cons, h]
    rfl

/-- C135, refuted: an integrator that is used and destroyed leaves its arrays. -/
theorem C135_refuted_destroyed (v : V) (moved : Bool) :
    ∃ w, Own.run World.start ([.create, .initial 0 moved v] ++ [.destroy 0]) = some w ∧ w.obj 0 = none ∧ live w.mem = 1 := by
  rw [run_append, first_run, Option.bind_some]
  exact ⟨_, rfl, rfl, rfl⟩

/-- Three integrators; a copy is made of one that has stored nothing. -/
example : means emptyCopy [.create, .copy 0, .initial 0 false 5, .store 0 false 6, .initial 1 false 7, .destroy 1, .create] =
    some [(true, [5, 6]), (false, [7]), (true, ([] : List Nat))] := rfl

end Softlib
