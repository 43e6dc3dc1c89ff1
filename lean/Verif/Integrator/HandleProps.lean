/-
How long pointers into the arrays of the integrator can be used (C108).  Model: HandleModel.lean.
-/
import Verif.Integrator.HandleModel
import Mathlib.Tactic.Set

namespace Softlib.Integrator.Handle

variable {V : Type}

/-- The current block is there and has the size that is recorded. -/
structure Good (s : St V) : Prop where
  le : s.n ≤ s.alloc
  size : ∀ b, s.cur = some b → 0 < s.alloc ∧ ∃ l, s.blocks[b]? = some (some l) ∧ l.length = s.alloc
  empty : s.cur = none → s.alloc = 0
  /-- multiples of a thousand -/
  thousand : s.alloc % 1000 = 0

theorem good_init : Good (St.init : St V) := ⟨by simp [St.init], by simp [St.init], by simp [St.init], by simp [St.init]⟩

theorem good_grow (moved : Bool) (s : St V) (h : Good s) : Good (grow moved s) ∧ (grow moved s).n < (grow moved s).alloc ∧
    (grow moved s).n = s.n ∧ (∃ b, (grow moved s).cur = some b) ∧
    (grow moved s).alloc = if s.alloc ≤ s.n then s.alloc + 1000 else s.alloc := by
  have hth := h.thousand
  have hle := h.le
  unfold grow
  by_cases hg : s.alloc ≤ s.n
  · rw [if_pos hg, if_pos hg]
    cases hc : s.cur with
    | none =>
      have h0 := h.empty hc
      refine ⟨⟨?_, ?_, ?_, ?_⟩, ?_, rfl, ⟨_, rfl⟩, rfl⟩
      · simp only; omega
      · intro b hb
        simp only [Option.some.injEq] at hb
        subst hb
        exact ⟨by simp only; omega, List.replicate 1000 none, by simp [-List.reduceReplicate], by simp [h0, -List.reduceReplicate]⟩
      · intro hb; cases hb
      · simp only; omega
      · simp only; omega
    | some b =>
      obtain ⟨hpos, l, hl, hlen⟩ := h.size b hc
      have hb : b < s.blocks.length := (List.getElem?_eq_some_iff.1 hl).1
      have hbl : s.block b = l := by simp [St.block, hl]
      cases moved with
      | true =>
        refine ⟨⟨?_, ?_, ?_, ?_⟩, ?_, rfl, ⟨_, rfl⟩, rfl⟩
        · simp only [if_true]; omega
        · intro b' hb'
          simp only [if_true, Option.some.injEq] at hb'
          subst hb'
          refine ⟨by simp only [if_true]; omega, l ++ List.replicate 1000 none, ?_, ?_⟩
          · simp [List.getElem?_append_right, hbl, -List.reduceReplicate]
          · simp [hlen, -List.reduceReplicate]
        · intro hb'; cases hb'
        · simp only [if_true]; omega
        · simp only [if_true]; omega
      | false =>
        refine ⟨⟨?_, ?_, ?_, ?_⟩, ?_, rfl, ⟨_, rfl⟩, rfl⟩
        · simp only [Bool.false_eq_true, if_false]; omega
        · intro b' hb'
          simp only [Bool.false_eq_true, if_false, Option.some.injEq] at hb'
          subst hb'
          refine ⟨by simp only [Bool.false_eq_true, if_false]; omega, l ++ List.replicate 1000 none, ?_, ?_⟩
          · simp [hb, hbl, -List.reduceReplicate]
          · simp [hlen, -List.reduceReplicate]
        · intro hb'; cases hb'
        · simp only [Bool.false_eq_true, if_false]; omega
        · simp only [Bool.false_eq_true, if_false]; omega
  · rw [if_neg hg, if_neg hg]
    refine ⟨h, by omega, rfl, ?_, rfl⟩
    cases hc : s.cur with
    | none => have := h.empty hc; omega
    | some b => exact ⟨b, rfl⟩

theorem good_put (v : V) (s : St V) (h : Good s) (hn : s.n < s.alloc) : Good (put v s) := by
  unfold put
  cases hc : s.cur with
  | none => exact h
  | some b =>
    obtain ⟨hpos, l, hl, hlen⟩ := h.size b hc
    have hb : b < s.blocks.length := (List.getElem?_eq_some_iff.1 hl).1
    refine ⟨by simp only; omega, ?_, (fun hb' => nomatch hb'), h.thousand⟩
    intro b' hb'
    simp only [Option.some.injEq] at hb'
    subst hb'
    exact ⟨hpos, (s.block b).set s.n (some v), by simp [hb], by simp [St.block, hl, hlen]⟩

theorem good_zero (s : St V) (h : Good s) : Good { s with n := 0 } := ⟨Nat.zero_le _, h.size, h.empty, h.thousand⟩

theorem good_step (s : St V) (op : Op V) (h : Good s) : Good (step s op) := by
  cases op with
  | store moved v =>
    obtain ⟨h1, h2, -⟩ := good_grow moved s h
    exact good_put v _ h1 h2
  | initial moved v =>
    obtain ⟨h1, h2, -⟩ := good_grow moved _ (good_zero s h)
    exact good_put v _ h1 h2

theorem good_run : ∀ (ops : List (Op V)) (s : St V), Good s → Good (run s ops)
  | [], _, h => h
  | op :: ops, s, h => good_run ops (step s op) (good_step s op h)

/-- The step moves the array. -/
def moves (s : St V) : Op V → Bool
  | .store moved _ => decide (s.alloc ≤ s.n) && moved
  | .initial moved _ => decide (s.alloc = 0) && moved

/-- Which entry the step writes, and what. -/
def entry (s : St V) : Op V → Nat × V
  | .store _ v => (s.n, v)
  | .initial _ v => (0, v)

theorem look_put (v : V) (s : St V) (b : Nat) (l : List (Option V)) (hc : s.cur = some b) (hl : s.blocks[b]? = some (some l))
    (hn : s.n < l.length) (k : Nat) : look (put v s) (b, k) = if k = s.n then some v else look s (b, k) := by
  have hb : b < s.blocks.length := (List.getElem?_eq_some_iff.1 hl).1
  have hbl : s.block b = l := by simp [St.block, hl]
  unfold put look
  simp only [hc, hbl, hl]
  rw [List.getElem?_set_self hb]
  simp only
  by_cases hk : k = s.n
  · subst hk
    simp [hn]
  · rw [if_neg hk, List.getElem?_set_ne (fun e => hk e.symm)]

theorem look_put_other (v : V) (s : St V) (b b' : Nat) (hc : s.cur = some b') (hne : b ≠ b') (k : Nat) :
    look (put v s) (b, k) = look s (b, k) := by
  unfold put look
  simp only [hc]
  rw [List.getElem?_set_ne (fun e => hne e.symm)]

theorem look_grow (moved : Bool) (s : St V) (h : Good s) (b : Nat) (hc : s.cur = some b) (k : Nat)
    (hm : (decide (s.alloc ≤ s.n) && moved) = false) :
    look (grow moved s) (b, k) = look s (b, k) ∧ (grow moved s).cur = some b := by
  obtain ⟨hpos, l, hl, hlen⟩ := h.size b hc
  have hb : b < s.blocks.length := (List.getElem?_eq_some_iff.1 hl).1
  have hbl : s.block b = l := by simp [St.block, hl]
  unfold grow
  by_cases hg : s.alloc ≤ s.n
  · have hmv : moved = false := by simpa [hg] using hm
    simp only [if_pos hg, hc, hmv, Bool.false_eq_true, if_false, and_true]
    unfold look
    simp only [hl, hbl]
    rw [List.getElem?_set_self hb]
    simp only
    by_cases hk : k < l.length
    · rw [List.getElem?_append_left hk]
    · rw [List.getElem?_append_right (by omega), List.getElem?_eq_none (by omega : l.length ≤ k)]
      rw [List.getElem?_replicate]
      split <;> rfl
  · rw [if_neg hg]
    exact ⟨rfl, hc⟩

/-- One operation, seen through a pointer into the current array. -/
theorem step_look (s : St V) (h : Good s) (op : Op V) (b : Nat) (hc : s.cur = some b) (k : Nat)
    (hm : moves s op = false) :
    look (step s op) (b, k) = (if k = (entry s op).1 then some (entry s op).2 else look s (b, k)) ∧
      (step s op).cur = some b := by
  cases op with
  | store moved v =>
    obtain ⟨g1, g2, g3, -⟩ := good_grow moved s h
    obtain ⟨e1, e2⟩ := look_grow moved s h b hc k hm
    obtain ⟨-, l, hl, hlen⟩ := g1.size b e2
    constructor
    · show look (put v (grow moved s)) (b, k) = _
      rw [look_put v _ b l e2 hl (by omega) k, g3, e1]
      rfl
    · show (put v (grow moved s)).cur = _
      unfold put
      rw [e2]
  | initial moved v =>
    have hz := good_zero s h
    obtain ⟨g1, g2, g3, -⟩ := good_grow moved _ hz
    obtain ⟨e1, e2⟩ := look_grow moved _ hz b hc k (by simpa [moves] using hm)
    obtain ⟨-, l, hl, hlen⟩ := g1.size b e2
    constructor
    · show look (put v (grow moved { s with n := 0 })) (b, k) = _
      rw [look_put v _ b l e2 hl (by omega) k, g3, e1]
      rfl
    · show (put v (grow moved { s with n := 0 })).cur = _
      unfold put
      rw [e2]

/-- A released block stays released. -/
def Gone (s : St V) (b : Nat) : Prop := s.blocks[b]? = some none

theorem gone_grow (moved : Bool) (s : St V) (h : Good s) (b : Nat) (hg : Gone s b) : Gone (grow moved s) b := by
  have hb : b < s.blocks.length := (List.getElem?_eq_some_iff.1 hg).1
  unfold grow
  by_cases hgr : s.alloc ≤ s.n
  · rw [if_pos hgr]
    cases hc : s.cur with
    | none =>
      unfold Gone at hg ⊢
      simp only
      rw [List.getElem?_append_left hb]
      exact hg
    | some c =>
      obtain ⟨hpos, l, hl, hlen⟩ := h.size c hc
      have hne : c ≠ b := by
        rintro rfl
        rw [hg] at hl
        cases hl
      cases moved with
      | true =>
        simp only [if_true, Gone]
        rw [List.getElem?_append_left (by simpa using hb), List.getElem?_set_ne hne]
        exact hg
      | false =>
        simp only [Bool.false_eq_true, if_false, Gone]
        rw [List.getElem?_set_ne hne]
        exact hg
  · rw [if_neg hgr]
    exact hg

theorem gone_put (v : V) (s : St V) (h : Good s) (b : Nat) (hg : Gone s b) : Gone (put v s) b := by
  unfold put
  cases hc : s.cur with
  | none => exact hg
  | some c =>
    obtain ⟨hpos, l, hl, hlen⟩ := h.size c hc
    have hne : c ≠ b := by
      rintro rfl
      rw [hg] at hl
      cases hl
    simp only [Gone]
    rw [List.getElem?_set_ne hne]
    exact hg

theorem gone_step (s : St V) (h : Good s) (op : Op V) (b : Nat) (hg : Gone s b) : Gone (step s op) b := by
  cases op with
  | store moved v => exact gone_put v _ (good_grow moved s h).1 b (gone_grow moved s h b hg)
  | initial moved v =>
    exact gone_put v _ (good_grow moved _ (good_zero s h)).1 b (gone_grow moved _ (good_zero s h) b hg)

theorem gone_run : ∀ (ops : List (Op V)) (s : St V) (b : Nat), Good s → Gone s b → Gone (run s ops) b
  | [], _, _, _, hg => hg
  | op :: ops, s, b, h, hg => gone_run ops (step s op) b (good_step s op h) (gone_step s h op b hg)

theorem look_gone (s : St V) (b k : Nat) (hg : Gone s b) : look s (b, k) = none := by
  unfold look
  rw [show s.blocks[(b, k).1]? = some none from hg]

/-- Moving releases the array. -/
theorem step_moves (s : St V) (h : Good s) (op : Op V) (b : Nat) (hc : s.cur = some b) (hm : moves s op = true) :
    Gone (step s op) b := by
  obtain ⟨hpos, l, hl, hlen⟩ := h.size b hc
  have hb : b < s.blocks.length := (List.getElem?_eq_some_iff.1 hl).1
  cases op with
  | store moved v =>
    simp only [moves, Bool.and_eq_true, decide_eq_true_eq] at hm
    refine gone_put v _ (good_grow moved s h).1 b ?_
    unfold grow
    rw [if_pos hm.1, hc]
    simp only [hm.2, if_true, Gone]
    rw [List.getElem?_append_left (by simpa using hb), List.getElem?_set_self hb]
  | initial moved v =>
    simp only [moves, Bool.and_eq_true, decide_eq_true_eq] at hm
    omega

theorem step_n (s : St V) (h : Good s) (moved : Bool) (v : V) :
    (step s (.store moved v)).n = s.n + 1 ∧
      (step s (.store moved v)).alloc = if s.alloc ≤ s.n then s.alloc + 1000 else s.alloc := by
  obtain ⟨g1, g2, g3, ⟨b, g4⟩, g5⟩ := good_grow moved s h
  show (put v (grow moved s)).n = _ ∧ (put v (grow moved s)).alloc = _
  unfold put
  rw [g4]
  exact ⟨by simp only [g3], g5⟩

theorem initial_n (s : St V) (h : Good s) (moved : Bool) (v : V) :
    (step s (.initial moved v)).n = 1 ∧
      (step s (.initial moved v)).alloc = if s.alloc = 0 then 1000 else s.alloc := by
  obtain ⟨g1, g2, g3, ⟨b, g4⟩, g5⟩ := good_grow moved _ (good_zero s h)
  show (put v (grow moved { s with n := 0 })).n = _ ∧ (put v (grow moved { s with n := 0 })).alloc = _
  unfold put
  rw [g4]
  refine ⟨by simp only [g3], ?_⟩
  simp only [g5, Nat.le_zero]
  split
  · rename_i h0
    omega
  · rfl

/-- Steps, with what the allocator does. -/
def stores (l : List (Bool × V)) : List (Op V) := l.map fun x => .store x.1 x.2

theorem stores_look : ∀ (l : List (Bool × V)) (s : St V) (_ : Good s) (b k : Nat) (_ : s.cur = some b) (_ : k < s.n)
    (_ : s.n + l.length ≤ s.alloc ∨ ∀ x ∈ l, x.1 = false),
    look (run s (stores l)) (b, k) = look s (b, k) ∧ (run s (stores l)).cur = some b
  | [], _, _, _, _, hc, _, _ => ⟨rfl, hc⟩
  | (moved, v) :: l, s, h, b, k, hc, hk, hcond => by
    have hm : moves s (.store moved v) = false := by
      rcases hcond with h1 | h1
      · simp only [List.length_cons] at h1
        simp only [moves, Bool.and_eq_false_iff, decide_eq_false_iff_not]
        left
        omega
      · have hmv : moved = false := h1 (moved, v) (List.mem_cons_self ..)
        simp [moves, hmv]
    obtain ⟨e1, e2⟩ := step_look s h (.store moved v) b hc k hm
    obtain ⟨n1, n2⟩ := step_n s h moved v
    have ih := stores_look l (step s (.store moved v)) (good_step s _ h) b k e2 (by omega) (by
      rcases hcond with h1 | h1
      · left
        simp only [List.length_cons] at h1
        rw [n1, n2, if_neg (by omega)]
        omega
      · right
        exact fun x hx => h1 x (List.mem_cons_of_mem _ hx))
    refine ⟨?_, ih.2⟩
    show look (run (step s (.store moved v)) (stores l)) (b, k) = _
    rw [ih.1, e1, if_neg]
    simp only [entry]
    omega

/-- The entry that a pointer obtained now shows. -/
def now (s : St V) (k : Nat) : Option V := (solutionPtr s k).bind (look s)

theorem now_grow (moved : Bool) (s : St V) (h : Good s) (k : Nat) : now (grow moved s) k = now s k := by
  unfold now solutionPtr
  cases hc : s.cur with
  | none =>
    have h0 := h.empty hc
    unfold grow
    rw [if_pos (by omega), hc]
    simp only [Option.map_some, Option.map_none, Option.bind_some, Option.bind_none]
    unfold look
    simp only [List.getElem?_append_right (Nat.le_refl _), Nat.sub_self, List.getElem?_cons_zero]
    rw [List.getElem?_replicate]
    split <;> rfl
  | some b =>
    obtain ⟨hpos, l, hl, hlen⟩ := h.size b hc
    have hb : b < s.blocks.length := (List.getElem?_eq_some_iff.1 hl).1
    have hbl : s.block b = l := by simp [St.block, hl]
    by_cases hm : (decide (s.alloc ≤ s.n) && moved) = false
    · obtain ⟨e1, e2⟩ := look_grow moved s h b hc k hm
      rw [e2]
      exact e1
    · simp only [Bool.not_eq_false, Bool.and_eq_true, decide_eq_true_eq] at hm
      unfold grow
      rw [if_pos hm.1, hc]
      simp only [hm.2, if_true, Option.map_some, Option.bind_some]
      unfold look
      simp only [hl, hbl]
      rw [List.getElem?_append_right (by simp)]
      simp only [List.length_set, Nat.sub_self, List.getElem?_cons_zero]
      by_cases hk : k < l.length
      · rw [List.getElem?_append_left hk]
      · rw [List.getElem?_append_right (by omega), List.getElem?_eq_none (by omega : l.length ≤ k)]
        rw [List.getElem?_replicate]
        split <;> rfl

theorem now_put (v : V) (s : St V) (h : Good s) (hn : s.n < s.alloc) (k : Nat) :
    now (put v s) k = if k = s.n then some v else now s k := by
  cases hc : s.cur with
  | none =>
    have := h.empty hc
    omega
  | some b =>
    obtain ⟨hpos, l, hl, hlen⟩ := h.size b hc
    have e := look_put v s b l hc hl (by omega) k
    have hcp : (put v s).cur = some b := by
      unfold put
      rw [hc]
    unfold now solutionPtr
    rw [hcp, hc]
    exact e

theorem now_step (s : St V) (h : Good s) (op : Op V) (k : Nat) :
    now (step s op) k = if k = (entry s op).1 then some (entry s op).2 else now s k := by
  cases op with
  | store moved v =>
    obtain ⟨g1, g2, g3, -⟩ := good_grow moved s h
    show now (put v (grow moved s)) k = _
    rw [now_put v _ g1 g2 k, g3, now_grow moved s h k]
    rfl
  | initial moved v =>
    obtain ⟨g1, g2, g3, -⟩ := good_grow moved _ (good_zero s h)
    show now (put v (grow moved { s with n := 0 })) k = _
    rw [now_put v _ g1 g2 k, g3, now_grow moved _ (good_zero s h) k]
    rfl

theorem now_stores : ∀ (l : List (Bool × V)) (s : St V) (_ : Good s) (k : Nat),
    now (run s (stores l)) k =
      if k < s.n then now s k else if k < s.n + l.length then (l[k - s.n]?).map Prod.snd else now s k
  | [], s, _, k => by
    show now s k = _
    by_cases h1 : k < s.n
    · rw [if_pos h1]
    · rw [if_neg h1, if_neg (by simpa using h1)]
  | (mv, w) :: l, s, hg, k => by
    obtain ⟨n1, n2⟩ := step_n s hg mv w
    show now (run (step s (.store mv w)) (stores l)) k = _
    have e : now (step s (.store mv w)) k = if k = s.n then some w else now s k := now_step s hg _ k
    rw [now_stores l _ (good_step s _ hg) k, n1, e]
    simp only [List.length_cons]
    by_cases h1 : k < s.n
    · rw [if_pos (by omega), if_neg (by omega), if_pos h1]
    · by_cases h2 : k = s.n
      · subst h2
        simp
      · rw [if_neg (by omega : ¬ k < s.n + 1), if_neg h1, if_neg h2]
        by_cases h3 : k < s.n + 1 + l.length
        · rw [if_pos h3, if_pos (by omega)]
          obtain ⟨d, hd⟩ : ∃ d, k = s.n + 1 + d := ⟨k - (s.n + 1), by omega⟩
          subst hd
          rw [show s.n + 1 + d - (s.n + 1) = d by omega, show s.n + 1 + d - s.n = d + 1 by omega]
          rfl
        · rw [if_neg h3, if_neg (by omega)]

end Softlib.Integrator.Handle

namespace Softlib

open Softlib.Integrator.Handle

variable {V : Type}

/-- C108.  A pointer to entry `k`, obtained when `n > k` entries are stored, shows the entry during every number of
further steps that fits into the memory allocated so far, whatever the allocator does, and for ever if the allocator
never moves the array. -/
theorem C108_pointer (ops : List (Op V)) (k : Nat) (hk : k < (run St.init ops).n) (l : List (Bool × V))
    (hroom : (run St.init ops).n + l.length ≤ (run St.init ops).alloc ∨ ∀ x ∈ l, x.1 = false) :
    ∃ p, solutionPtr (run St.init ops) k = some p ∧ solutionPtr (run (run St.init ops) (stores l)) k = some p ∧
      look (run (run St.init ops) (stores l)) p = look (run St.init ops) p := by
  have hg := good_run ops _ (good_init (V := V))
  generalize run St.init ops = s at *
  cases hc : s.cur with
  | none =>
    have := hg.empty hc
    have := hg.le
    omega
  | some b =>
    obtain ⟨h1, h2⟩ := stores_look l s hg b k hc hk hroom
    exact ⟨(b, k), by simp [solutionPtr, hc], by simp [solutionPtr, h2], h1⟩

/-- C108.  How much room there is: after an initial value and `m` steps of a new integrator the next multiple of a
thousand. -/
theorem C108_room (moved : Bool) (v : V) (l : List (Bool × V)) :
    (run St.init (.initial moved v :: stores l)).n = l.length + 1 ∧
      (run St.init (.initial moved v :: stores l)).alloc = 1000 * (l.length / 1000 + 1) := by
  have key : ∀ (l : List (Bool × V)) (s : St V) (m : Nat), Good s → s.n = m + 1 → s.alloc = 1000 * (m / 1000 + 1) →
      (run s (stores l)).n = m + l.length + 1 ∧ (run s (stores l)).alloc = 1000 * ((m + l.length) / 1000 + 1) := by
    intro l
    induction l with
    | nil =>
      intro s m _ h1 h2
      exact ⟨h1, h2⟩
    | cons x l ih =>
      intro s m hg h1 h2
      obtain ⟨mv, w⟩ := x
      obtain ⟨n1, n2⟩ := step_n s hg mv w
      have := ih (step s (.store mv w)) (m + 1) (good_step s _ hg) (by omega) (by
        rw [n2]
        split <;> omega)
      show (run (step s (.store mv w)) (stores l)).n = _ ∧ (run (step s (.store mv w)) (stores l)).alloc = _
      rw [this.1, this.2]
      simp only [List.length_cons]
      constructor
      · omega
      · congr 2
        omega
  obtain ⟨i1, i2⟩ := initial_n (St.init : St V) good_init moved v
  have := key l (step St.init (.initial moved v)) 0 (good_step _ _ good_init) i1 (by rw [i2]; rfl)
  rw [Nat.zero_add] at this
  exact this

/-- C108.  **What a pointer shows** once a step has found the memory full and the allocator has moved the array: nothing,
whatever happens afterwards; the memory has been released. -/
theorem C108_moved (ops : List (Op V)) (k : Nat) (p : Nat × Nat) (hp : solutionPtr (run St.init ops) k = some p)
    (hfull : (run St.init ops).n = (run St.init ops).alloc) (v : V) (rest : List (Op V)) :
    look (run (run St.init ops) (.store true v :: rest)) p = none := by
  have hg := good_run ops _ (good_init (V := V))
  generalize run St.init ops = s at *
  cases hc : s.cur with
  | none =>
    simp [solutionPtr, hc] at hp
  | some b =>
    simp only [solutionPtr, hc, Option.map_some, Option.some.injEq] at hp
    subst hp
    apply look_gone
    exact gone_run rest _ b (good_step s _ hg) (step_moves s hg _ b hc (by simp [moves, hfull]))

/-- C108.  **What a pointer shows after `InitialValue`** and `l` steps that fit: entry 0 is the new initial value, the
entries up to the number of steps are the new steps, and the others are still what they were. -/
theorem C108_restart (ops : List (Op V)) (k : Nat) (p : Nat × Nat) (hp : solutionPtr (run St.init ops) k = some p)
    (moved : Bool) (v : V) (l : List (Bool × V)) (hroom : 1 + l.length ≤ (run St.init ops).alloc) :
    look (run (run St.init ops) (.initial moved v :: stores l)) p =
      if k = 0 then some v else if k ≤ l.length then (l[k - 1]?).map Prod.snd else look (run St.init ops) p := by
  have hg := good_run ops _ (good_init (V := V))
  generalize run St.init ops = s at *
  cases hc : s.cur with
  | none =>
    simp [solutionPtr, hc] at hp
  | some b =>
    simp only [solutionPtr, hc, Option.map_some, Option.some.injEq] at hp
    subst hp
    have hpos := (hg.size b hc).1
    obtain ⟨e1, e2⟩ := step_look s hg (.initial moved v) b hc k (by simp [moves]; omega)
    obtain ⟨n1, n2⟩ := initial_n s hg moved v
    rw [if_neg (by omega)] at n2
    have key : ∀ (l : List (Bool × V)) (s : St V), Good s → s.cur = some b → s.n + l.length ≤ s.alloc →
        look (run s (stores l)) (b, k) =
          if k < s.n then look s (b, k) else if k < s.n + l.length then (l[k - s.n]?).map Prod.snd else look s (b, k) := by
      intro l
      induction l with
      | nil =>
        intro s hg hc hr
        show look s (b, k) = _
        by_cases h1 : k < s.n
        · rw [if_pos h1]
        · rw [if_neg h1, if_neg (by simpa using h1)]
      | cons x l ih =>
        intro s hg hc hr
        obtain ⟨mv, w⟩ := x
        simp only [List.length_cons] at hr
        obtain ⟨n1, n2⟩ := step_n s hg mv w
        rw [if_neg (by omega)] at n2
        obtain ⟨e1, e2⟩ := step_look s hg (.store mv w) b hc k (by simp [moves]; omega)
        show look (run (step s (.store mv w)) (stores l)) (b, k) = _
        replace e1 : look (step s (.store mv w)) (b, k) = if k = s.n then some w else look s (b, k) := e1
        rw [ih _ (good_step s _ hg) e2 (by omega), n1, e1]
        simp only [List.length_cons]
        by_cases h1 : k < s.n
        · rw [if_pos (by omega), if_neg (by omega), if_pos h1]
        · by_cases h2 : k = s.n
          · subst h2
            simp
          · rw [if_neg (by omega : ¬ k < s.n + 1), if_neg h1, if_neg h2]
            by_cases h3 : k < s.n + 1 + l.length
            · rw [if_pos h3, if_pos (by omega)]
              obtain ⟨d, hd⟩ : ∃ d, k = s.n + 1 + d := ⟨k - (s.n + 1), by omega⟩
              subst hd
              rw [show s.n + 1 + d - (s.n + 1) = d by omega, show s.n + 1 + d - s.n = d + 1 by omega]
              rfl
            · rw [if_neg h3, if_neg (by omega)]
    show look (run (step s (.initial moved v)) (stores l)) (b, k) = _
    replace e1 : look (step s (.initial moved v)) (b, k) = if k = 0 then some v else look s (b, k) := e1
    rw [key l _ (good_step s _ hg) e2 (by omega), n1, e1]
    by_cases h1 : k = 0
    · simp [h1]
    · rw [if_neg (by omega), if_neg h1, if_neg h1]
      by_cases h2 : k ≤ l.length
      · rw [if_pos (by omega), if_pos h2]
      · rw [if_neg (by omega), if_neg h2]

/-- C108.  The pointers obtained anew always show the entries stored since the last initial value, whatever the allocator
did; in particular `LastSolution` shows the last one. -/
theorem C108_fresh (ops : List (Op V)) (moved : Bool) (v : V) (l : List (Bool × V)) (k : Nat) (hk : k ≤ l.length) :
    (solutionPtr (run (run St.init ops) (.initial moved v :: stores l)) k).bind
        (look (run (run St.init ops) (.initial moved v :: stores l))) =
      if k = 0 then some v else (l[k - 1]?).map Prod.snd := by
  have hg := good_run ops _ (good_init (V := V))
  generalize run St.init ops = s at *
  obtain ⟨n1, -⟩ := initial_n s hg moved v
  have := now_stores l (step s (.initial moved v)) (good_step s _ hg) k
  have e : now (step s (.initial moved v)) k = if k = 0 then some v else now s k := now_step s hg _ k
  rw [n1, e] at this
  show now (run (step s (.initial moved v)) (stores l)) k = _
  rw [this]
  by_cases h1 : k = 0
  · simp [h1]
  · rw [if_neg (by omega), if_pos (by omega), if_neg h1]

/-- C108.  `LastSolution` is `SolutionAt` of the last entry; only without any entry it is the null pointer. -/
theorem C108_last (s : St V) : (s.n = 0 → lastPtr s = none) ∧ (0 < s.n → lastPtr s = solutionPtr s (s.n - 1)) :=
  ⟨fun h => by simp [lastPtr, h], fun h => by simp [lastPtr, Nat.ne_of_gt h]⟩

example : (solutionPtr (run St.init [.initial true 5, .store false 6, .store true 7]) 1).bind
    (look (run St.init [.initial true 5, .store false 6, .store true 7])) = some 6 :=
  C108_fresh [] true 5 [(false, 6), (true, 7)] 1 (by decide)

/-- C108 fails as stated: for all values, the pointer to the initial value, which can be used during 999 steps, cannot be
used when one more step has been taken and the allocator has moved the array. -/
theorem C108_refuted (v : V) (l : List V) (hl : l.length = 999) (w : V) : ∃ p,
    lastPtr (run St.init [.initial false v]) = some p ∧
    look (run (run St.init [.initial false v]) (stores (l.map fun x => (true, x)))) p = some v ∧
    look (run (run (run St.init [.initial false v]) (stores (l.map fun x => (true, x)))) [.store true w]) p = none := by
  obtain ⟨r1, r2⟩ := C108_room (V := V) false v []
  obtain ⟨p, p1, p2, p3⟩ := C108_pointer [.initial false v] 0 (by rw [show (run St.init [Op.initial false v]).n = 1 from r1]; omega)
    (l.map fun x => (true, x)) (Or.inl (by
      rw [show (run St.init [Op.initial false v]).n = 1 from r1, show (run St.init [Op.initial false v]).alloc = 1000 from r2.trans (by simp)]
      simp [hl]))
  have hlook : look (run St.init [Op.initial false v]) p = some v := by
    have := C108_fresh (V := V) [] false v [] 0 (Nat.le_refl _)
    rw [if_pos rfl] at this
    rw [← this]
    show _ = (solutionPtr (run St.init [Op.initial false v]) 0).bind _
    rw [p1]
    rfl
  obtain ⟨s1, s2⟩ := C108_room (V := V) false v (l.map fun x => (true, x))
  refine ⟨p, ?_, by rw [p3, hlook], ?_⟩
  · rw [(C108_last _).2 (by rw [show (run St.init [Op.initial false v]).n = 1 from r1]; omega),
      show (run St.init [Op.initial false v]).n = 1 from r1]
    exact p1
  · exact C108_moved (.initial false v :: stores (l.map fun x => (true, x))) 0 p p2
      (by rw [s1, s2]; simp [hl]) w []

end Softlib
