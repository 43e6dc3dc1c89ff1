/-
C98: numeric fields release what they own once, and nothing is read after its release.

Source: /repo/src/MagneticField/MagneticFieldNumeric2D.cpp 43-289.
-/
import Verif.Magnetic.OwnershipModel

namespace Softlib

open Magnetic

/-! ### The discipline of a careful program, and what it loses -/

/-- What the documentation of the constructor asks for (lines 84-91): a contour that has points is
given by both of its arrays. -/
def GoodContours (a : OArgs) : Prop :=
  (0 < a.nsep → a.rsep.isSome = true ∧ a.zsep.isSome = true) ∧
    (0 < a.nwall → a.rwall.isSome = true ∧ a.zwall.isSome = true)

/-- The arrays given are different arrays of the program's own. -/
def OwnArrays (w : OWorld) (a : OArgs) : Prop :=
  a.arrays.Nodup ∧ ∀ b ∈ a.arrays, b ∈ w.mine

/-- A careful step: only arrays that were not handed over are released or handed over, and only
fields that exist are used. -/
def Careful (w : OWorld) : OOp → Prop
  | .array => True
  | .release b => b ∈ w.mine
  | .construct a => OwnArrays w a ∧ GoodContours a
  | .reinit i a => (∃ f, w.fields[i]? = some (some f)) ∧ OwnArrays w a ∧ GoodContours a
  | .clone i => ∃ f, w.fields[i]? = some (some f)
  | .query i => ∃ f, w.fields[i]? = some (some f)
  | .destroy i => ∃ f, w.fields[i]? = some (some f)

/-- A careful program: every step it reaches is careful. -/
def CarefulRun (w : OWorld) : List OOp → Prop
  | [] => True
  | op :: ops => Careful w op ∧ ∀ w', oStep w op = .ok w' ∨ oStep w op = .throws w' → CarefulRun w' ops

/-- The number of arrays among the two that were given. -/
def givenCount (r z : Option Nat) : Nat := r.toList.length + z.toList.length

/-- The blocks a field leaves behind when it is destroyed: two accelerators and three splines; with a
flux also its array and its spline; the arrays of contours without points. -/
def fieldLeak (f : OField) : Nat :=
  5 + (if f.a.Psi.isSome then 2 else 0) +
    (if f.a.nsep = 0 then givenCount f.a.rsep f.a.zsep else 0) +
    (if f.a.nwall = 0 then givenCount f.a.rwall f.a.zwall else 0)

/-- The blocks a field forgets when it is initialised again: all arrays it was given, and the
interpolation objects. -/
def reinitLeak (f : OField) : Nat :=
  10 + (if f.a.Psi.isSome then 2 else 0) +
    givenCount f.a.rsep f.a.zsep + givenCount f.a.rwall f.a.zwall

/-- The blocks lost by one step. -/
def stepLeak (w : OWorld) : OOp → Nat
  | .construct a =>
    if (a.rsep = none ∨ a.zsep = none) ∧ (a.rwall = none ∨ a.zwall = none) then 3 else 0
  | .reinit i a =>
    if (a.rsep = none ∨ a.zsep = none) ∧ (a.rwall = none ∨ a.zwall = none) then 0 else
      match w.fields[i]? with
      | some (some f) => reinitLeak f
      | _ => 0
  | .destroy i =>
    match w.fields[i]? with
    | some (some f) => fieldLeak f
    | _ => 0
  | _ => 0

/-- The blocks lost by a program. -/
def runLeak (w : OWorld) : List OOp → Nat
  | [] => 0
  | op :: ops => stepLeak w op +
    match oStep w op with
    | .ok w' => runLeak w' ops
    | .throws w' => runLeak w' ops
    | .ub => 0

/-- What the existing fields hold. -/
def heldAll (fs : List (Option OField)) : List Nat :=
  fs.flatMap fun o => match o with
    | some f => f.held
    | none => []

/-! ### The invariant: every block is in exactly one place -/

/-- Every block handed out so far is released, the program's, held by one field, or lost. -/
structure OInv (w : OWorld) (lost : List Nat) : Prop where
  cnt : ∀ b, w.freed.count b + w.mine.count b + (heldAll w.fields).count b + lost.count b =
    if b < w.next then 1 else 0
  good : ∀ f, some f ∈ w.fields → GoodContours f.a ∧ f.gsl.length = f.a.gslCount
  enough : 5 * w.fields.count none ≤ lost.length

theorem heldAll_append (xs ys : List (Option OField)) :
    heldAll (xs ++ ys) = heldAll xs ++ heldAll ys := by
  simp [heldAll]

theorem heldAll_some (f : OField) (fs) : heldAll (some f :: fs) = f.held ++ heldAll fs := by
  simp [heldAll]

theorem heldAll_none (fs) : heldAll (none :: fs) = heldAll fs := by
  simp [heldAll]

theorem split_at {α} (l : List α) (i : Nat) (a : α) (h : l[i]? = some a) :
    ∃ l1 l2, l = l1 ++ a :: l2 ∧ ∀ x, l.set i x = l1 ++ x :: l2 := by
  refine ⟨l.take i, l.drop (i + 1), ?_, ?_⟩
  · obtain ⟨hi, ha⟩ := List.getElem?_eq_some_iff.mp h
    rw [← ha, List.getElem_cons_drop hi, List.take_append_drop]
  · intro x
    obtain ⟨hi, _⟩ := List.getElem?_eq_some_iff.mp h
    exact List.set_eq_take_append_cons_drop.trans (if_pos hi)

theorem count_newBlocks (n k b : Nat) :
    (newBlocks n k).count b = if n ≤ b ∧ b < n + k then 1 else 0 := by
  induction k with
  | zero => simp [newBlocks]
  | succ k ih =>
    have : newBlocks n (k + 1) = newBlocks n k ++ [n + k] := by
      simp [newBlocks, List.range_succ]
    rw [this, List.count_append, ih]
    simp only [List.count_singleton, beq_iff_eq]
    split <;> split <;> split <;> omega

theorem length_newBlocks (n k : Nat) : (newBlocks n k).length = k := by simp [newBlocks]

/-- A block with a place that is not "released" is allocated. -/
theorem live_of_count (w : OWorld) (b : Nat) (h1 : b < w.next) (h2 : w.freed.count b = 0) :
    w.live b = true := by
  unfold OWorld.live
  rw [List.count_eq_zero] at h2
  simp [h1, h2]

theorem OInv.live {w lost} (h : OInv w lost) (b : Nat)
    (hb : b ∈ w.mine ∨ b ∈ heldAll w.fields) : w.live b = true := by
  have hc := h.cnt b
  have : 0 < w.mine.count b + (heldAll w.fields).count b := by
    rcases hb with hb | hb
    · have := List.count_pos_iff.mpr hb; omega
    · have := List.count_pos_iff.mpr hb; omega
  split at hc
  · exact live_of_count w b (by assumption) (by omega)
  · omega

theorem readable_of (w : OWorld) (bs : List Nat) (h : ∀ b ∈ bs, w.live b = true) :
    readable w bs = true := by
  unfold readable; exact List.all_eq_true.mpr h

/-- Releasing different allocated blocks works, and releases exactly them. -/
theorem freeAll_ok : ∀ (bs : List Nat) (w : OWorld), bs.Nodup → (∀ b ∈ bs, w.live b = true) →
    freeAll w bs = some { w with freed := bs.reverse ++ w.freed }
  | [], w, _, _ => by simp [freeAll]
  | b :: bs, w, hn, hl => by
    unfold freeAll
    rw [if_pos (hl b (by simp))]
    have hn' := List.nodup_cons.mp hn
    rw [freeAll_ok bs _ hn'.2]
    · simp
    · intro c hc
      have h1 := hl c (by simp [hc])
      unfold OWorld.live at h1 ⊢
      have hne : c ≠ b := fun e => hn'.1 (e ▸ hc)
      simp at h1 ⊢
      exact ⟨h1.1, hne, h1.2⟩

theorem nodup_of_count {l : List Nat} (h : ∀ b, l.count b ≤ 1) : l.Nodup :=
  List.nodup_iff_count.mpr h

/-! ### What is held, released and left behind by a field -/

/-- What the destructor does not release. -/
def OField.leftover (f : OField) : List Nat :=
  f.a.Psi.toList ++ (if f.a.nsep = 0 then f.a.rsep.toList ++ f.a.zsep.toList else []) ++
    (if f.a.nwall = 0 then f.a.rwall.toList ++ f.a.zwall.toList else []) ++ f.gsl

theorem held_count (f : OField) (b : Nat) :
    f.held.count b = f.released.count b + (OField.leftover f).count b := by
  obtain ⟨⟨R, Z, Br, Bphi, Bz, Psi, rsep, zsep, nsep, rwall, zwall, nwall⟩, iv, j, j0, g⟩ := f
  simp only [OField.held, OField.released, OField.leftover, OArgs.arrays, OArgs.gridArrays,
    OArgs.freedContours, List.count_append, List.count_cons, List.count_nil]
  rcases Nat.eq_zero_or_pos nsep with h1 | h1 <;> rcases Nat.eq_zero_or_pos nwall with h2 | h2
  · simp [h1, h2]; omega
  · have : nwall ≠ 0 := by omega
    simp [h1, h2, this]; omega
  · have : nsep ≠ 0 := by omega
    simp [h1, h2, this]; omega
  · have : nsep ≠ 0 := by omega
    have : nwall ≠ 0 := by omega
    simp [h1, h2, *]; omega

theorem leftover_length (f : OField) (h : f.gsl.length = f.a.gslCount) :
    (OField.leftover f).length = fieldLeak f := by
  obtain ⟨⟨R, Z, Br, Bphi, Bz, Psi, rsep, zsep, nsep, rwall, zwall, nwall⟩, iv, j, j0, g⟩ := f
  simp only [OArgs.gslCount] at h
  simp only [OField.leftover, fieldLeak, givenCount, List.length_append, h]
  cases Psi <;> (simp; split <;> split <;> simp <;> omega)

theorem held_length (f : OField) (h : f.gsl.length = f.a.gslCount) :
    (f.a.arrays ++ f.gsl).length = reinitLeak f := by
  obtain ⟨⟨R, Z, Br, Bphi, Bz, Psi, rsep, zsep, nsep, rwall, zwall, nwall⟩, iv, j, j0, g⟩ := f
  simp only [OArgs.gslCount] at h
  simp only [OArgs.arrays, OArgs.gridArrays, reinitLeak, givenCount, List.length_append, h]
  cases Psi <;> simp <;> omega

theorem noContour_iff (a : OArgs) : a.noContour = true ↔
    (a.rsep = none ∨ a.zsep = none) ∧ (a.rwall = none ∨ a.zwall = none) := by
  obtain ⟨R, Z, Br, Bphi, Bz, Psi, rsep, zsep, nsep, rwall, zwall, nwall⟩ := a
  cases rsep <;> cases zsep <;> cases rwall <;> cases zwall <;> simp [OArgs.noContour]

/-- Handing over: the arrays leave the program's hands. -/
theorem count_handed (mine bs : List Nat) (hn : bs.Nodup) (hs : ∀ b ∈ bs, b ∈ mine) (b : Nat)
    (h1 : mine.count b ≤ 1) :
    (mine.filter (fun c => !bs.contains c)).count b + bs.count b = mine.count b := by
  by_cases hb : b ∈ bs
  · have h2 : (mine.filter (fun c => !bs.contains c)).count b = 0 := by
      rw [List.count_eq_zero]; simp [hb]
    have h3 : bs.count b = 1 := by
      have := List.nodup_iff_count.mp hn b
      have := List.count_pos_iff.mpr hb
      omega
    have h4 := List.count_pos_iff.mpr (hs b hb)
    omega
  · have h2 : (mine.filter (fun c => !bs.contains c)).count b = mine.count b := by
      apply List.count_filter; simp [hb]
    have h3 : bs.count b = 0 := List.count_eq_zero.mpr hb
    omega

theorem contourReads_good (n : Nat) (r z : Option Nat)
    (h : 0 < n → r.isSome = true ∧ z.isSome = true) :
    ∃ bs, contourReads n r z = some bs ∧ ∀ b ∈ bs, b ∈ r.toList ++ z.toList := by
  unfold contourReads
  by_cases hn : n = 0
  · exact ⟨[], by simp [hn], by simp⟩
  · obtain ⟨h1, h2⟩ := h (by omega)
    obtain ⟨r, rfl⟩ := Option.isSome_iff_exists.mp h1
    obtain ⟨z, rfl⟩ := Option.isSome_iff_exists.mp h2
    exact ⟨[r, z], by simp [hn], by simp⟩

theorem cloneArgs_count (a : OArgs) (n b : Nat) :
    (a.cloneArgs n).arrays.count b = if n ≤ b ∧ b < n + a.cloneCount then 1 else 0 := by
  obtain ⟨R, Z, Br, Bphi, Bz, Psi, rsep, zsep, nsep, rwall, zwall, nwall⟩ := a
  cases Psi
  · simp only [OArgs.cloneArgs, OArgs.arrays, OArgs.gridArrays, OArgs.cloneCount,
      List.count_append, List.count_cons, List.count_nil, Option.toList, Option.isSome, beq_iff_eq,
      if_false, Bool.false_eq_true]
    by_cases h : n ≤ b ∧ b < n + 9
    · rw [if_pos h]
      have : b = n ∨ b = n + 1 ∨ b = n + 2 ∨ b = n + 3 ∨ b = n + 4 ∨ b = n + 5 ∨ b = n + 6 ∨
        b = n + 7 ∨ b = n + 8 := by omega
      rcases this with h | h | h | h | h | h | h | h | h <;> subst h <;> simp
    · rw [if_neg h]
      repeat rw [if_neg (by omega)]
  · simp only [OArgs.cloneArgs, OArgs.arrays, OArgs.gridArrays, OArgs.cloneCount,
      List.count_append, List.count_cons, List.count_nil, Option.toList, Option.isSome, beq_iff_eq,
      if_true]
    by_cases h : n ≤ b ∧ b < n + 10
    · rw [if_pos h]
      have : b = n ∨ b = n + 1 ∨ b = n + 2 ∨ b = n + 3 ∨ b = n + 4 ∨ b = n + 5 ∨ b = n + 6 ∨
        b = n + 7 ∨ b = n + 8 ∨ b = n + 9 := by omega
      rcases this with h | h | h | h | h | h | h | h | h | h <;> subst h <;> simp
    · rw [if_neg h]
      repeat rw [if_neg (by omega)]

/-! ### Every careful step keeps the invariant -/

/-- The constructor, given arrays of the program's own. -/
theorem construct_step (w : OWorld) (lost : List Nat) (a : OArgs) (h : OInv w lost)
    (ho : OwnArrays w a) (hg : GoodContours a) :
    (a.noContour = true ∧ ∃ w', oConstruct w a = .throws w' ∧
      OInv w' ([w.next, w.next + 1, w.next + 2] ++ lost)) ∨
    (a.noContour = false ∧ ∃ w', oConstruct w a = .ok w' ∧ OInv w' lost) := by
  cases hc : a.noContour
  · right
    refine ⟨rfl, ?_⟩
    have hr : readable { w with next := w.next + 3 } a.gridArrays = true := by
      refine readable_of _ _ (fun b hb => ?_)
      have hb' : b ∈ a.arrays := by
        unfold OArgs.arrays; simp only [List.mem_append]; simp [hb]
      have := h.live b (Or.inl (ho.2 b hb'))
      unfold OWorld.live at this ⊢
      simp at this ⊢
      exact ⟨by omega, this.2⟩
    refine ⟨_, by simp only [oConstruct, hc, hr]; rfl, ?_, ?_, ?_⟩
    · intro b
      have h0 := h.cnt b
      have h1 : w.mine.count b ≤ 1 := by split at h0 <;> omega
      have h2 := count_handed w.mine a.arrays ho.1 ho.2 b h1
      simp only [heldAll_append, heldAll_some, List.count_append, OField.held, List.count_cons,
        List.count_nil, count_newBlocks, beq_iff_eq]
      have h3 : (heldAll []).count b = 0 := by simp [heldAll]
      rw [h3]
      generalize (List.filter (fun c => !a.arrays.contains c) w.mine).count b = x at h2 ⊢
      generalize a.arrays.count b = y at h2 ⊢
      by_cases c1 : b < w.next
      · rw [if_pos c1] at h0
        repeat rw [if_neg (by omega)]
        rw [if_pos (by omega)]; omega
      · rw [if_neg c1] at h0
        by_cases c2 : b < w.next + 3 + a.gslCount
        · rw [if_pos c2]
          by_cases c3 : b = w.next
          · rw [if_neg (by omega), if_neg (by omega), if_pos (by omega), if_neg (by omega)]; omega
          · by_cases c4 : b = w.next + 1
            · rw [if_neg (by omega), if_pos (by omega), if_neg (by omega), if_neg (by omega)]; omega
            · by_cases c5 : b = w.next + 2
              · rw [if_pos (by omega), if_neg (by omega), if_neg (by omega), if_neg (by omega)]; omega
              · rw [if_neg (by omega), if_neg (by omega), if_neg (by omega), if_pos (by omega)]
                omega
        · repeat rw [if_neg (by omega)]
          omega
    · intro f hf
      rcases List.mem_append.mp hf with hf | hf
      · exact h.good f hf
      · simp at hf; subst hf; exact ⟨hg, by simp [length_newBlocks]⟩
    · have := h.enough
      simp only [List.count_append]
      simpa using this
  · left
    refine ⟨rfl, { w with next := w.next + 3 }, by simp only [oConstruct, hc], ?_, h.good, ?_⟩
    · intro b
      have h0 := h.cnt b
      simp only [List.count_append, List.count_cons, List.count_nil, beq_iff_eq]
      by_cases c1 : b < w.next
      · rw [if_pos c1] at h0
        repeat rw [if_neg (by omega)]
        rw [if_pos (by omega)]; omega
      · rw [if_neg c1] at h0
        by_cases c2 : b < w.next + 3
        · rw [if_pos c2]
          have : b = w.next ∨ b = w.next + 1 ∨ b = w.next + 2 := by omega
          rcases this with c | c | c <;> subst c <;> simp <;> omega
        · repeat rw [if_neg (by omega)]
          omega
    · have := h.enough
      simp only [List.length_append]
      omega

/-- `Clone` is an allocation of arrays by the program followed by the constructor. -/
theorem clone_step (w : OWorld) (lost : List Nat) (i : Nat) (f : OField) (h : OInv w lost)
    (hf : w.fields[i]? = some (some f)) :
    ∃ w', oClone w f = .ok w' ∧ OInv w' lost := by
  have hm : some f ∈ w.fields := List.mem_of_getElem? hf
  obtain ⟨hg, _⟩ := h.good f hm
  have hheld : ∀ b ∈ f.held, w.live b = true := by
    intro b hb
    refine h.live b (Or.inr ?_)
    unfold heldAll
    exact List.mem_flatMap.mpr ⟨some f, hm, hb⟩
  obtain ⟨s, hs1, hs2⟩ := contourReads_good f.a.nsep f.a.rsep f.a.zsep hg.1
  obtain ⟨t, ht1, ht2⟩ := contourReads_good f.a.nwall f.a.rwall f.a.zwall hg.2
  have hr : readable w (f.a.gridArrays ++ s ++ t) = true := by
    refine readable_of _ _ (fun b hb => hheld b ?_)
    unfold OField.held OArgs.arrays
    simp only [List.mem_append] at hb hs2 ht2 ⊢
    rcases hb with (hb | hb) | hb
    · simp [hb]
    · rcases hs2 b hb with hb | hb <;> simp [hb]
    · rcases ht2 b hb with hb | hb <;> simp [hb]
  let w1 : OWorld := { w with next := w.next + f.a.cloneCount, mine := (f.a.cloneArgs w.next).arrays ++ w.mine }
  have hold : ∀ b ∈ w.mine, b < w.next := by
    intro b hb
    have h1 := List.count_pos_iff.mpr hb
    have h0 := h.cnt b
    by_cases hlt : b < w.next
    · exact hlt
    · rw [if_neg hlt] at h0; omega
  have h1 : OInv w1 lost := by
    refine ⟨fun b => ?_, h.good, h.enough⟩
    have h0 := h.cnt b
    show w.freed.count b + ((f.a.cloneArgs w.next).arrays ++ w.mine).count b +
      (heldAll w.fields).count b + lost.count b = if b < w.next + f.a.cloneCount then 1 else 0
    rw [List.count_append, cloneArgs_count]
    by_cases c1 : b < w.next
    · rw [if_pos c1] at h0
      rw [if_neg (by omega), if_pos (by omega)]; omega
    · rw [if_neg c1] at h0
      by_cases c2 : b < w.next + f.a.cloneCount
      · rw [if_pos (by omega), if_pos (by omega)]; omega
      · rw [if_neg (by omega), if_neg (by omega)]; omega
  have hnd : (f.a.cloneArgs w.next).arrays.Nodup := by
    refine nodup_of_count (fun b => ?_)
    rw [cloneArgs_count]; split <;> omega
  have hnc : (f.a.cloneArgs w.next).noContour = false := by simp [OArgs.noContour, OArgs.cloneArgs]
  have hgc : GoodContours (f.a.cloneArgs w.next) := by
    simp [GoodContours, OArgs.cloneArgs]
  rcases construct_step w1 lost _ h1 ⟨hnd, fun b hb => List.mem_append.mpr (Or.inl hb)⟩ hgc with
    ⟨hx, _⟩ | ⟨_, w', hw, hi⟩
  · rw [hnc] at hx; cases hx
  · refine ⟨w', ?_, hi⟩
    rw [← hw]
    have hfil : ((f.a.cloneArgs w.next).arrays ++ w.mine).filter
        (fun b => !(f.a.cloneArgs w.next).arrays.contains b) =
        w.mine.filter (fun b => !(f.a.cloneArgs w.next).arrays.contains b) := by
      rw [List.filter_append, List.filter_eq_nil_iff.mpr (by simp), List.nil_append]
    simp only [oClone, OArgs.cloneReads, hs1, ht1, hr, oConstruct, hnc, w1, hfil]
    rfl

/-- `Init` called again. -/
theorem reinit_step (w : OWorld) (lost : List Nat) (i : Nat) (f : OField) (a : OArgs)
    (h : OInv w lost) (hf : w.fields[i]? = some (some f))
    (ho : OwnArrays w a) (hg : GoodContours a) :
    (a.noContour = true ∧ oReinit w i f a = .throws w) ∨
    (a.noContour = false ∧ ∃ w', oReinit w i f a = .ok w' ∧ OInv w' ((f.a.arrays ++ f.gsl) ++ lost)) := by
  cases hc : a.noContour
  · right
    refine ⟨rfl, ?_⟩
    have hr : readable w a.gridArrays = true := by
      refine readable_of _ _ (fun b hb => h.live b (Or.inl (ho.2 b ?_)))
      unfold OArgs.arrays; simp only [List.mem_append]; simp [hb]
    obtain ⟨l1, l2, hl, hset⟩ := split_at _ _ _ hf
    refine ⟨_, by simp only [oReinit, hc, hr]; rfl, ?_, ?_, ?_⟩
    · intro b
      have h0 := h.cnt b
      have h1 : w.mine.count b ≤ 1 := by split at h0 <;> omega
      have h2 := count_handed w.mine a.arrays ho.1 ho.2 b h1
      simp only [hset, heldAll_append, heldAll_some, List.count_append, OField.held, List.count_cons,
        List.count_nil, count_newBlocks, beq_iff_eq]
      rw [hl] at h0
      simp only [heldAll_append, heldAll_some, List.count_append, OField.held, List.count_cons,
        List.count_nil, beq_iff_eq] at h0
      generalize (List.filter (fun c => !a.arrays.contains c) w.mine).count b = x at h2 ⊢
      by_cases c1 : b < w.next
      · rw [if_pos c1] at h0
        rw [if_neg (show ¬ (w.next ≤ b ∧ b < w.next + a.gslCount) by omega),
          if_pos (show b < w.next + a.gslCount by omega)]; omega
      · rw [if_neg c1] at h0
        by_cases c2 : b < w.next + a.gslCount
        · rw [if_pos (show w.next ≤ b ∧ b < w.next + a.gslCount by omega), if_pos c2]; omega
        · rw [if_neg (show ¬ (w.next ≤ b ∧ b < w.next + a.gslCount) by omega), if_neg c2]; omega
    · intro g hgm
      have : some g ∈ w.fields ∨ g = { f with a := a, gsl := newBlocks w.next a.gslCount } := by
        have hgm' : some g ∈ w.fields.set i (some { f with a := a, gsl := newBlocks w.next a.gslCount }) := hgm
        rw [hset] at hgm'
        rw [hl]
        simp at hgm' ⊢
        rcases hgm' with hx | hx | hx
        · simp [hx]
        · exact Or.inr hx
        · simp [hx]
      rcases this with hx | hx
      · exact h.good g hx
      · subst hx; exact ⟨hg, by simp [length_newBlocks]⟩
    · have := h.enough
      rw [hl] at this
      simp only [hset, List.count_append, List.count_cons, List.length_append] at this ⊢
      simp at this ⊢
      omega
  · left
    exact ⟨rfl, by simp only [oReinit, hc]⟩

/-- Destruction. -/
theorem destroy_step (w : OWorld) (lost : List Nat) (i : Nat) (f : OField) (h : OInv w lost)
    (hf : w.fields[i]? = some (some f)) :
    ∃ w', oDestroy w i f = .ok w' ∧ OInv w' (OField.leftover f ++ lost) := by
  have hm : some f ∈ w.fields := List.mem_of_getElem? hf
  obtain ⟨_, hgl⟩ := h.good f hm
  obtain ⟨l1, l2, hl, hset⟩ := split_at _ _ _ hf
  have hcnt : ∀ b, w.freed.count b + w.mine.count b + ((heldAll l1).count b +
      (f.released.count b + (OField.leftover f).count b + (heldAll l2).count b)) + lost.count b =
      if b < w.next then 1 else 0 := by
    intro b
    have h0 := h.cnt b
    rw [hl, heldAll_append, heldAll_some, List.count_append, List.count_append, held_count] at h0
    exact h0
  have hfree : freeAll w f.released = some { w with freed := f.released.reverse ++ w.freed } := by
    refine freeAll_ok _ _ (nodup_of_count fun b => ?_) (fun b hb => ?_)
    · have h0 := hcnt b
      split at h0 <;> omega
    · have h0 := hcnt b
      have h1 := List.count_pos_iff.mpr hb
      split at h0
      · exact live_of_count w b (by assumption) (by omega)
      · omega
  refine ⟨_, by simp only [oDestroy, hfree]; rfl, ?_, ?_, ?_⟩
  · intro b
    have h0 := hcnt b
    simp only [hset, heldAll_append, heldAll_none, List.count_append, List.count_reverse]
    rw [← h0]; omega
  · intro g hg
    refine h.good g ?_
    have hg' : some g ∈ w.fields.set i none := hg
    rw [hset] at hg'
    rw [hl]
    simp at hg' ⊢
    rcases hg' with hx | hx <;> simp [hx]
  · have := h.enough
    have h5 : 5 ≤ (OField.leftover f).length := by
      rw [leftover_length f hgl]; unfold fieldLeak; omega
    rw [hl] at this
    simp only [hset, List.count_append, List.count_cons, List.length_append] at this ⊢
    simp at this ⊢
    omega

/-- Use of a field. -/
theorem query_step (w : OWorld) (lost : List Nat) (i : Nat) (f : OField) (h : OInv w lost)
    (hf : w.fields[i]? = some (some f)) : oQuery w f = .ok w := by
  have hm : some f ∈ w.fields := List.mem_of_getElem? hf
  obtain ⟨hg, _⟩ := h.good f hm
  have hheld : ∀ b ∈ f.held, w.live b = true := by
    intro b hb
    refine h.live b (Or.inr ?_)
    unfold heldAll
    exact List.mem_flatMap.mpr ⟨some f, hm, hb⟩
  obtain ⟨s, hs1, hs2⟩ := contourReads_good f.a.nsep f.a.rsep f.a.zsep hg.1
  obtain ⟨t, ht1, ht2⟩ := contourReads_good f.a.nwall f.a.rwall f.a.zwall hg.2
  have hr : readable w ([f.interpval, f.jac, f.jac0] ++ f.gsl ++ s ++ t) = true := by
    refine readable_of _ _ (fun b hb => hheld b ?_)
    unfold OField.held OArgs.arrays
    simp only [List.mem_append] at hb hs2 ht2 ⊢
    rcases hb with ((hb | hb) | hb) | hb
    · exact Or.inl (Or.inl hb)
    · exact Or.inr hb
    · rcases hs2 b hb with hb | hb <;> simp [hb]
    · rcases ht2 b hb with hb | hb <;> simp [hb]
  simp only [oQuery, hs1, ht1, hr]

/-- A careful step is defined, and loses exactly what `stepLeak` says. -/
theorem careful_step (w : OWorld) (lost : List Nat) (op : OOp) (h : OInv w lost)
    (hc : Careful w op) :
    ∃ w' lost', (oStep w op = .ok w' ∨ oStep w op = .throws w') ∧ OInv w' lost' ∧
      lost'.length = stepLeak w op + lost.length := by
  cases op with
  | array =>
    refine ⟨_, lost, Or.inl rfl, ⟨fun b => ?_, h.good, h.enough⟩, by simp [stepLeak]⟩
    have h0 := h.cnt b
    show w.freed.count b + (w.next :: w.mine).count b + (heldAll w.fields).count b + lost.count b =
      if b < w.next + 1 then 1 else 0
    simp only [List.count_cons, beq_iff_eq]
    by_cases c1 : b < w.next
    · rw [if_pos c1] at h0
      rw [if_neg (by omega), if_pos (by omega)]; omega
    · rw [if_neg c1] at h0
      by_cases c2 : b < w.next + 1
      · rw [if_pos (by omega), if_pos c2]; omega
      · rw [if_neg (by omega), if_neg c2]; omega
  | release b =>
    have hb : b ∈ w.mine := hc
    have hl := h.live b (Or.inl hb)
    have hf := freeAll_ok [b] w (by simp) (by simpa using hl)
    refine ⟨{ w with freed := [b].reverse ++ w.freed, mine := w.mine.erase b }, lost,
      Or.inl (by simp only [oStep, hf]), ⟨fun c => ?_, h.good, h.enough⟩, by simp [stepLeak]⟩
    have h0 := h.cnt c
    show ([b].reverse ++ w.freed).count c + (w.mine.erase b).count c + (heldAll w.fields).count c +
      lost.count c = if c < w.next then 1 else 0
    rw [List.count_append, List.count_reverse, List.count_singleton, List.count_erase, ← h0]
    by_cases hcb : b = c
    · subst hcb
      have := List.count_pos_iff.mpr hb
      simp; omega
    · simp [hcb]
  | construct a =>
    obtain ⟨ho, hg⟩ := hc
    rcases construct_step w lost a h ho hg with ⟨hn, w', hw, hi⟩ | ⟨hn, w', hw, hi⟩
    · refine ⟨w', _, Or.inr hw, hi, ?_⟩
      simp only [stepLeak]
      rw [if_pos ((noContour_iff a).mp hn)]
      simp; omega
    · refine ⟨w', _, Or.inl hw, hi, ?_⟩
      simp only [stepLeak]
      rw [if_neg (fun hx => by rw [(noContour_iff a).mpr hx] at hn; cases hn)]
      omega
  | clone i =>
    obtain ⟨f, hf⟩ := hc
    obtain ⟨w', hw, hi⟩ := clone_step w lost i f h hf
    exact ⟨w', lost, Or.inl (by simp only [oStep, hf, hw]), hi, by simp [stepLeak]⟩
  | reinit i a =>
    obtain ⟨⟨f, hf⟩, ho, hg⟩ := hc
    have hgl := (h.good f (List.mem_of_getElem? hf)).2
    rcases reinit_step w lost i f a h hf ho hg with ⟨hn, hw⟩ | ⟨hn, w', hw, hi⟩
    · refine ⟨w, lost, Or.inr (by simp only [oStep, hf, hw]), h, ?_⟩
      simp only [stepLeak]
      rw [if_pos ((noContour_iff a).mp hn)]; omega
    · refine ⟨w', _, Or.inl (by simp only [oStep, hf, hw]), hi, ?_⟩
      simp only [stepLeak, hf]
      rw [if_neg (fun hx => by rw [(noContour_iff a).mpr hx] at hn; cases hn),
        List.length_append, held_length f hgl]
  | query i =>
    obtain ⟨f, hf⟩ := hc
    have hw := query_step w lost i f h hf
    exact ⟨w, lost, Or.inl (by simp only [oStep, hf, hw]), h, by simp [stepLeak]⟩
  | destroy i =>
    obtain ⟨f, hf⟩ := hc
    have hgl := (h.good f (List.mem_of_getElem? hf)).2
    obtain ⟨w', hw, hi⟩ := destroy_step w lost i f h hf
    refine ⟨w', _, Or.inl (by simp only [oStep, hf, hw]), hi, ?_⟩
    simp only [stepLeak, hf]
    rw [List.length_append, leftover_length f hgl]

theorem careful_run : ∀ (ops : List OOp) (w : OWorld) (lost : List Nat), OInv w lost →
    CarefulRun w ops → ∃ w' lost', oRun w ops = some w' ∧ OInv w' lost' ∧
      lost'.length = runLeak w ops + lost.length
  | [], w, lost, h, _ => ⟨w, lost, rfl, h, by simp [runLeak]⟩
  | op :: ops, w, lost, h, hc => by
    obtain ⟨w1, l1, hw, hi, hlen⟩ := careful_step w lost op h hc.1
    obtain ⟨w2, l2, hr, hi2, hlen2⟩ := careful_run ops w1 l1 hi (hc.2 w1 hw)
    refine ⟨w2, l2, ?_, hi2, ?_⟩
    · rcases hw with hw | hw <;> simp only [oRun, hw, hr]
    · rcases hw with hw | hw <;> simp only [runLeak, hw] <;> omega

theorem OInv.empty : OInv OWorld.empty [] :=
  ⟨fun b => by simp [OWorld.empty, heldAll], fun f hf => by simp [OWorld.empty] at hf,
    by simp [OWorld.empty]⟩

/-! ### C98 -/

/-- C98, the part that holds.  However a careful program makes, clones, initialises again, uses and
destroys numeric fields, in whatever order, nothing is undefined: nothing is released twice and
nothing is read after its release.  At the end every block ever allocated is in exactly one of four
places: released, in the program's hands, held by exactly one field that still exists, or lost; and
the number of lost blocks is exactly that of `runLeak`.  Missing from the claim as stated: the number
of lost blocks is not zero (`C98_refuted_leak`), and the fields do not tolerate an array given for
two purposes (`C98_refuted_shared`). -/
theorem C98_ownership_partial (ops : List OOp) (h : CarefulRun OWorld.empty ops) :
    ∃ w lost, oRun OWorld.empty ops = some w ∧ w.freed.Nodup ∧
      (w.freed ++ w.mine ++ heldAll w.fields ++ lost).Perm (List.range w.next) ∧
      lost.length = runLeak OWorld.empty ops := by
  obtain ⟨w, lost, hr, hi, hl⟩ := careful_run ops _ _ OInv.empty h
  refine ⟨w, lost, hr, nodup_of_count fun b => ?_, ?_, by simpa using hl⟩
  · have h0 := hi.cnt b
    split at h0 <;> omega
  · rw [List.perm_iff_count]
    intro b
    have h0 := hi.cnt b
    simp only [List.count_append]
    rw [h0]
    have := count_newBlocks 0 w.next b
    simp only [newBlocks, Nat.zero_add, List.map_id', Nat.zero_le, true_and] at this
    exact this.symm

/-- The exact balance: once every field is destroyed, the blocks still allocated are those in the
program's hands and those lost. -/
theorem C98_balance (ops : List OOp) (h : CarefulRun OWorld.empty ops) (w : OWorld)
    (hr : oRun OWorld.empty ops = some w) (hd : ∀ o ∈ w.fields, o = none) :
    w.next = w.freed.length + w.mine.length + runLeak OWorld.empty ops := by
  obtain ⟨w', lost, hr', _, hp, hl⟩ := C98_ownership_partial ops h
  rw [hr] at hr'
  cases hr'
  have hz : heldAll w.fields = [] := by
    unfold heldAll
    rw [List.flatMap_eq_nil_iff]
    intro o ho
    rw [hd o ho]
  have := hp.length_eq
  simp only [List.length_append, List.length_range, hz, List.length_nil] at this
  omega

/-- Refutation of the last part of C98, for every program: whatever careful program made a field and
destroyed all its fields, at least five blocks per field are lost. -/
theorem C98_refuted_leak (ops : List OOp) (h : CarefulRun OWorld.empty ops) (w : OWorld)
    (hr : oRun OWorld.empty ops = some w) (hd : ∀ o ∈ w.fields, o = none) :
    w.freed.length + w.mine.length + 5 * w.fields.length ≤ w.next := by
  have hb := C98_balance ops h w hr hd
  obtain ⟨w', lost, hr', hi, hl⟩ := careful_run ops _ _ OInv.empty h
  rw [hr] at hr'
  cases hr'
  have h5 := hi.enough
  have : w.fields.count none = w.fields.length := List.count_eq_length.mpr (fun o ho => (hd o ho).symm)
  simp at hl
  omega

/-- Releasing a list of blocks is defined exactly when they are different allocated blocks. -/
theorem freeAll_iff : ∀ (bs : List Nat) (w : OWorld),
    (freeAll w bs).isSome = true ↔ bs.Nodup ∧ ∀ b ∈ bs, w.live b = true
  | [], w => by simp [freeAll]
  | b :: bs, w => by
    unfold freeAll
    by_cases hb : w.live b = true
    · rw [if_pos hb, freeAll_iff bs]
      have key : ∀ c, OWorld.live { w with freed := b :: w.freed } c = true ↔
          w.live c = true ∧ c ≠ b := by
        intro c
        unfold OWorld.live
        simp
        constructor
        · rintro ⟨h1, h2, h3⟩; exact ⟨⟨h1, h3⟩, h2⟩
        · rintro ⟨⟨h1, h3⟩, h2⟩; exact ⟨h1, h2, h3⟩
      constructor
      · rintro ⟨hn, hl⟩
        refine ⟨List.nodup_cons.mpr ⟨fun hm => ((key b).mp (hl b hm)).2 rfl, hn⟩, ?_⟩
        intro c hc
        rcases List.mem_cons.mp hc with rfl | hc
        · exact hb
        · exact ((key c).mp (hl c hc)).1
      · rintro ⟨hn, hl⟩
        have hn' := List.nodup_cons.mp hn
        exact ⟨hn'.2, fun c hc => (key c).mpr ⟨hl c (by simp [hc]), fun e => hn'.1 (e ▸ hc)⟩⟩
    · rw [if_neg hb]
      constructor
      · intro h; cases h
      · rintro ⟨_, hl⟩; exact absurd (hl b (by simp)) hb

/-- A field can be destroyed exactly when the arrays its destructor releases are different and still
allocated. -/
theorem C98_destroy_iff (w : OWorld) (i : Nat) (f : OField) :
    oDestroy w i f ≠ .ub ↔ f.released.Nodup ∧ ∀ b ∈ f.released, w.live b = true := by
  rw [← freeAll_iff]
  unfold oDestroy
  cases freeAll w f.released <;> simp

/-- Refutation for arrays with two purposes: a field whose wall is given by the array of its
separatrix (both with points) is made without complaint, by every program, and cannot be destroyed. -/
theorem C98_refuted_shared (w : OWorld) (a : OArgs) (r z : Nat)
    (hg : ∀ b ∈ a.gridArrays, w.live b = true)
    (h1 : a.rsep = some r) (h2 : a.zsep = some z) (h3 : a.rwall = some r) (h4 : a.zwall = some z)
    (h5 : 0 < a.nsep) (h6 : 0 < a.nwall) :
    ∃ w', oStep w (.construct a) = .ok w' ∧ oStep w' (.destroy w.fields.length) = .ub := by
  have hc : a.noContour = false := by simp [OArgs.noContour, h1, h2, h3, h4]
  have hr : readable { w with next := w.next + 3 } a.gridArrays = true := by
    refine readable_of _ _ (fun b hb => ?_)
    have := hg b hb
    unfold OWorld.live at this ⊢
    simp at this ⊢
    exact ⟨by omega, this.2⟩
  refine ⟨_, by simp only [oStep, oConstruct, hc, hr]; rfl, ?_⟩
  simp only [oStep, List.getElem?_append_right (Nat.le_refl _), Nat.sub_self, List.getElem?_cons_zero]
  refine Classical.byContradiction (fun hn => ?_)
  have := ((C98_destroy_iff _ _ _).mp hn).1
  simp [OField.released, OArgs.freedContours, h1, h2, h3, h4, h5, h6] at this

/-- What a field of its own leaves behind, spelled out: five interpolation objects; seven blocks when
there is a flux; and for a clone two more for each contour that has no points. -/
theorem C98_left_behind (f : OField) (n : Nat) (iv j j0 : Nat) (g : List Nat) :
    5 ≤ fieldLeak f ∧ (f.a.Psi ≠ none → 7 ≤ fieldLeak f) ∧
    fieldLeak ⟨f.a.cloneArgs n, iv, j, j0, g⟩ =
      5 + (if f.a.Psi = none then 0 else 2) + (if f.a.nsep = 0 then 2 else 0) +
        (if f.a.nwall = 0 then 2 else 0) := by
  refine ⟨by unfold fieldLeak; omega, fun h => ?_, ?_⟩
  · have : f.a.Psi.isSome = true := by cases hp : f.a.Psi <;> simp_all
    unfold fieldLeak; simp [this]; omega
  · obtain ⟨⟨R, Z, Br, Bphi, Bz, Psi, rsep, zsep, nsep, rwall, zwall, nwall⟩, _, _, _, _⟩ := f
    unfold fieldLeak
    simp only [OArgs.cloneArgs, givenCount]
    cases Psi <;> simp

/-- The points of a contour can be copied: there are none, or both of its arrays are there and
allocated. -/
def ContourThere (w : OWorld) (n : Nat) (r z : Option Nat) : Prop :=
  n = 0 ∨ ∃ a b, r = some a ∧ z = some b ∧ w.live a = true ∧ w.live b = true

theorem contourReads_there (w : OWorld) (n : Nat) (r z : Option Nat) :
    ContourThere w n r z ↔ ∃ bs, contourReads n r z = some bs ∧ ∀ b ∈ bs, w.live b = true := by
  unfold ContourThere contourReads
  by_cases hn : n = 0
  · simp [hn]
  · cases r <;> cases z <;> simp [hn]

/-- A field can be cloned exactly when its grid arrays are allocated and each contour has either no
points or two allocated arrays; the clone is then always made. -/
theorem C98_clone_iff (w : OWorld) (f : OField) (hw : ∀ b ∈ w.freed, b < w.next) :
    ((∃ w', oClone w f = .ok w') ↔ (∀ b ∈ f.a.gridArrays, w.live b = true) ∧
      ContourThere w f.a.nsep f.a.rsep f.a.zsep ∧ ContourThere w f.a.nwall f.a.rwall f.a.zwall) ∧
    ((∃ w', oClone w f = .ok w') ∨ oClone w f = .ub) := by
  have hc : ∀ n, (f.a.cloneArgs n).noContour = false := by
    intro n; simp [OArgs.noContour, OArgs.cloneArgs]
  have hr : readable { { w with next := w.next + f.a.cloneCount } with
      next := w.next + f.a.cloneCount + 3 } (f.a.cloneArgs w.next).gridArrays = true := by
    refine readable_of _ _ (fun b hb => ?_)
    have hb' : w.next ≤ b ∧ b < w.next + f.a.cloneCount := by
      unfold OArgs.cloneCount
      cases hp : f.a.Psi <;> simp [OArgs.gridArrays, OArgs.cloneArgs, hp] at hb ⊢ <;> omega
    have : b ∉ w.freed := fun h => by have := hw b h; omega
    simp [OWorld.live, this]
    omega
  have hk : ∃ w', oConstruct { w with next := w.next + f.a.cloneCount } (f.a.cloneArgs w.next)
      = .ok w' := by
    unfold oConstruct
    simp only [hc, hr]
    exact ⟨_, rfl⟩
  have hread : ∀ bs, readable w bs = true ↔ ∀ b ∈ bs, w.live b = true := by
    intro bs; simp [readable]
  rw [contourReads_there, contourReads_there]
  unfold oClone OArgs.cloneReads
  cases h1 : contourReads f.a.nsep f.a.rsep f.a.zsep with
  | none => simp
  | some s =>
    cases h2 : contourReads f.a.nwall f.a.rwall f.a.zwall with
    | none => simp
    | some t =>
      dsimp only
      cases h3 : readable w (f.a.gridArrays ++ s ++ t) with
      | false =>
        refine ⟨⟨fun ⟨_, h⟩ => (by cases h), fun ⟨hg, ⟨s', e1, hs⟩, ⟨t', e2, ht⟩⟩ => ?_⟩, Or.inr rfl⟩
        cases e1; cases e2
        have : readable w (f.a.gridArrays ++ s ++ t) = true := by
          rw [hread]
          intro b hb
          rcases List.mem_append.mp hb with hb | hb
          · rcases List.mem_append.mp hb with hb | hb
            · exact hg b hb
            · exact hs b hb
          · exact ht b hb
        rw [h3] at this; cases this
      | true =>
        rw [hread] at h3
        refine ⟨⟨fun _ => ⟨fun b hb => h3 b (by simp [hb]), ⟨s, rfl, fun b hb => h3 b (by simp [hb])⟩,
          ⟨t, rfl, fun b hb => h3 b (by simp [hb])⟩⟩, fun _ => hk⟩, Or.inl hk⟩

/-- A field can be evaluated exactly when its scratch blocks and interpolation objects are allocated
and each contour has no points or two allocated arrays. -/
theorem C98_query_iff (w : OWorld) (f : OField) :
    (oQuery w f = .ok w ↔ (∀ b ∈ [f.interpval, f.jac, f.jac0] ++ f.gsl, w.live b = true) ∧
      ContourThere w f.a.nsep f.a.rsep f.a.zsep ∧ ContourThere w f.a.nwall f.a.rwall f.a.zwall) ∧
    (oQuery w f = .ok w ∨ oQuery w f = .ub) := by
  have hread : ∀ bs, readable w bs = true ↔ ∀ b ∈ bs, w.live b = true := by
    intro bs; simp [readable]
  rw [contourReads_there, contourReads_there]
  unfold oQuery
  cases h1 : contourReads f.a.nsep f.a.rsep f.a.zsep with
  | none => simp
  | some s =>
    cases h2 : contourReads f.a.nwall f.a.rwall f.a.zwall with
    | none => simp
    | some t =>
      dsimp only
      cases h3 : readable w ([f.interpval, f.jac, f.jac0] ++ f.gsl ++ s ++ t) with
      | false =>
        refine ⟨⟨fun h => (by cases h), fun ⟨hg, ⟨s', e1, hs⟩, ⟨t', e2, ht⟩⟩ => ?_⟩, Or.inr rfl⟩
        cases e1; cases e2
        have : readable w ([f.interpval, f.jac, f.jac0] ++ f.gsl ++ s ++ t) = true := by
          rw [hread]
          intro b hb
          rcases List.mem_append.mp hb with hb | hb
          · rcases List.mem_append.mp hb with hb | hb
            · exact hg b hb
            · exact hs b hb
          · exact ht b hb
        rw [h3] at this; cases this
      | true =>
        rw [hread] at h3
        exact ⟨⟨fun _ => ⟨fun b hb => h3 b (by rw [List.append_assoc]; exact List.mem_append_left _ hb),
          ⟨s, rfl, fun b hb => h3 b (by simp [hb])⟩,
          ⟨t, rfl, fun b hb => h3 b (by simp [hb])⟩⟩, fun _ => rfl⟩, Or.inl rfl⟩

/-- A field made with a wall length but no wall arrays is accepted and cannot be cloned. -/
example : oRun OWorld.empty [.array, .array, .array, .array, .array, .array, .array,
    .construct ⟨0, 1, 2, 3, 4, none, some 5, some 6, 4, none, none, 3⟩] ≠ none ∧
    oRun OWorld.empty [.array, .array, .array, .array, .array, .array, .array,
    .construct ⟨0, 1, 2, 3, 4, none, some 5, some 6, 4, none, none, 3⟩, .clone 0] = none := by
  decide +kernel

/-- A careful program: seven arrays, a field with a wall, a clone of it, the original is destroyed
first and the clone is still used. -/
def ownDemo : List OOp :=
  [.array, .array, .array, .array, .array, .array, .array,
   .construct ⟨0, 1, 2, 3, 4, none, none, none, 0, some 5, some 6, 4⟩,
   .clone 0, .destroy 0, .query 1, .destroy 1]

/-- The demonstration is careful all the way: the hypotheses can be met. -/
example : CarefulRun OWorld.empty ownDemo := by
  simp [ownDemo, CarefulRun, Careful, oStep, OWorld.empty, oConstruct, OArgs.noContour, readable,
    OArgs.gridArrays, OWorld.live, OwnArrays, GoodContours, OArgs.arrays, OArgs.gslCount, newBlocks,
    List.range, List.range.loop, oClone, OArgs.cloneReads, contourReads, OArgs.cloneArgs,
    OArgs.cloneCount, oDestroy, freeAll, OField.released, OArgs.freedContours, oQuery]

/-- It runs, releases twenty blocks and loses twelve: five with the original and seven with the clone. -/
example : (oRun OWorld.empty ownDemo).map (fun w => (w.next, w.freed.length, w.mine.length)) =
    some (32, 20, 0) ∧ runLeak OWorld.empty ownDemo = 12 := by decide +kernel

/-- Destroying a field twice, or using it afterwards, is undefined in the model too. -/
example : oRun OWorld.empty (ownDemo ++ [.destroy 0]) = none ∧
    oRun OWorld.empty (ownDemo ++ [.query 1]) = none := by decide +kernel

/-- Releasing an array that was handed over makes the destructor release it again. -/
example : oRun OWorld.empty (ownDemo.take 8 ++ [.release 0, .destroy 0]) = none := by decide +kernel

end Softlib
