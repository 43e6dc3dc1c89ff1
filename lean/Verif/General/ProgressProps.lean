/-
Properties C27, C28 and C66: progress reports.
-/
import Verif.General.ProgressModel

namespace Softlib

open Softlib.General

/-- Iteration at which the `k`-th of `m` lines is due in a loop of `n` iterations: the first
`n % m` gaps are one longer than the others. -/
def dueAt (n m k : Nat) : Nat := k * (n / m) + min k (n % m)

/-- State after `k` updates. -/
def trackerAt (n m k : Nat) : Tracker :=
  ⟨n / m, (n % m) * (n / m + 1), dueAt n m k, k⟩

theorem next_point (d r k : Nat) :
    (if k * d + min k r < r * (d + 1) then k * d + min k r + (d + 1) else k * d + min k r + d) =
      (k + 1) * d + min (k + 1) r := by
  rcases Nat.lt_or_ge k r with h | h
  · have h1 : k * d + min k r = k * (d + 1) := by
      rw [Nat.min_eq_left (Nat.le_of_lt h), Nat.mul_add, Nat.mul_one]
    have h2 : k * d + min k r < r * (d + 1) := by
      rw [h1]; exact Nat.mul_lt_mul_of_pos_right h (Nat.succ_pos d)
    rw [if_pos h2, h1, Nat.min_eq_left (by omega)]
    rw [Nat.add_mul, Nat.mul_add]
    omega
  · have h1 : k * d + min k r = k * d + r := by rw [Nat.min_eq_right h]
    have h2 : ¬ k * d + min k r < r * (d + 1) := by
      rw [h1, Nat.mul_add, Nat.mul_one]
      have : r * d ≤ k * d := Nat.mul_le_mul_right d h
      omega
    rw [if_neg h2, h1, Nat.min_eq_right (by omega)]
    rw [Nat.add_mul]
    omega

theorem updateNext_at (n m k : Nat) : updateNext (trackerAt n m k) = trackerAt n m (k + 1) := by
  simp only [updateNext, trackerAt, Tracker.mk.injEq, true_and, and_true, dueAt]
  exact next_point (n / m) (n % m) k

theorem newTracker_eq (n m : Nat) : newTracker n m = trackerAt n m 1 := by
  have : (⟨n / m, (n % m) * (n / m + 1), 0, 0⟩ : Tracker) = trackerAt n m 0 := by
    simp [trackerAt, dueAt]
  rw [newTracker, this, updateNext_at]

theorem dueAt_succ (n m k : Nat) :
    dueAt n m (k + 1) = dueAt n m k + n / m + (if k < n % m then 1 else 0) := by
  unfold dueAt
  rw [Nat.add_mul]
  split <;> omega

theorem dueAt_last (n m : Nat) (hm : 0 < m) : dueAt n m m = n := by
  unfold dueAt
  rw [Nat.min_eq_right (Nat.le_of_lt (Nat.mod_lt n hm))]
  exact Nat.div_add_mod n m

/-- The last line printed: number `min n m`, at iteration `n`. -/
theorem dueAt_min (n m : Nat) (hm : 0 < m) : dueAt n m (min n m) = n := by
  rcases Nat.lt_or_ge n m with h | h
  · rw [Nat.min_eq_left (Nat.le_of_lt h)]
    unfold dueAt
    rw [Nat.div_eq_of_lt h, Nat.mod_eq_of_lt h]
    omega
  · rw [Nat.min_eq_right h]
    exact dueAt_last n m hm

theorem dueAt_strict (n m k : Nat) (hm : 0 < m) (hk : k < min n m) : dueAt n m k < dueAt n m (k + 1) := by
  rw [dueAt_succ]
  rcases Nat.lt_or_ge n m with h | h
  · rw [Nat.div_eq_of_lt h, Nat.mod_eq_of_lt h, if_pos (by omega)]
    omega
  · have : 0 < n / m := Nat.div_pos h hm
    omega

theorem dueAt_mono (n m : Nat) {a b : Nat} (h : a ≤ b) : dueAt n m a ≤ dueAt n m b := by
  unfold dueAt
  have : a * (n / m) ≤ b * (n / m) := Nat.mul_le_mul_right _ h
  omega

/-- Nothing is due before the next point. -/
theorem reports_skip (n m k : Nat) (hk : 1 ≤ k) (hmin : k ≤ min n m) (hm : 0 < m) :
    ∀ (j i : Nat), i + j = dueAt n m k →
      ∀ rest, reports i (j + rest) (trackerAt n m k) = reports (i + j) rest (trackerAt n m k) := by
  intro j
  induction j with
  | zero => intro i _ rest; simp
  | succ j ih =>
    intro i hij rest
    rw [show j + 1 + rest = (j + rest) + 1 from by omega, reports]
    have : i < (trackerAt n m k).next := by show i < dueAt n m k; omega
    simp only [printProgress, if_pos this]
    rw [ih (i + 1) (by omega), show i + 1 + j = i + (j + 1) from by omega]

/-- The lines from number `k` on, if the loop is at the iteration following line `k-1`. -/
theorem reports_from (n m : Nat) (hm : 0 < m) : ∀ (c k : Nat), 1 ≤ k → k + c = min n m + 1 →
    reports (dueAt n m (k - 1) + 1) (n - dueAt n m (k - 1)) (trackerAt n m k) =
      (List.range' k c).map (fun j => (dueAt n m j, j)) := by
  intro c
  induction c with
  | zero =>
    intro k hk hc
    have : k - 1 = min n m := by omega
    rw [this, dueAt_min n m hm, Nat.sub_self]
    rfl
  | succ c ih =>
    intro k hk hc
    have hlt : dueAt n m (k - 1) < dueAt n m k := by
      have := dueAt_strict n m (k - 1) hm (by omega)
      rw [show k - 1 + 1 = k from by omega] at this
      exact this
    have hle : dueAt n m k ≤ n := by
      have := dueAt_mono n m (a := k) (b := min n m) (by omega)
      rw [dueAt_min n m hm] at this
      exact this
    have e : n - dueAt n m (k - 1) = (dueAt n m k - dueAt n m (k - 1) - 1) + (n - dueAt n m k + 1) := by omega
    rw [e, reports_skip n m k hk (by omega) hm _ _ (by omega)]
    rw [show dueAt n m (k - 1) + 1 + (dueAt n m k - dueAt n m (k - 1) - 1) = dueAt n m k from by omega]
    rw [reports]
    have : ¬ dueAt n m k < (trackerAt n m k).next := Nat.lt_irrefl _
    simp only [printProgress, if_neg this, updateNext_at]
    have ih' := ih (k + 1) (by omega) (by omega)
    rw [show k + 1 - 1 = k from by omega] at ih'
    rw [ih', List.range'_succ, List.map_cons]
    rfl

/-- C27, exact form, for all `n` and `m ≥ 1`: `min n m` lines are printed, numbered 1, 2, …,
line `k` at iteration `k * (n / m) + min k (n % m)`.
Missing: for `n < m` the last line is number `n`, not `m` (see `C27_refuted`). -/
theorem C27_lines_partial (n m : Nat) (hm : 0 < m) :
    runLoop n m = (List.range' 1 (min n m)).map (fun k => (dueAt n m k, k)) := by
  have := reports_from n m hm (min n m) 1 (Nat.le_refl _) (by omega)
  rw [show (1 : Nat) - 1 = 0 from rfl, show dueAt n m 0 = 0 from by simp [dueAt]] at this
  rw [runLoop, newTracker_eq]
  exact this

/-- C27, the number of lines. -/
theorem C27_number_of_lines (n m : Nat) (hm : 0 < m) : (runLoop n m).length = min n m := by
  rw [C27_lines_partial n m hm]; simp

/-- C27, even spacing: gaps between consecutive lines (the first counted from 0) are `n / m` or
one more, and increase line by line. -/
theorem C27_evenly_spaced (n m k : Nat) (hm : 0 < m) (hk : k < min n m) :
    dueAt n m k < dueAt n m (k + 1) ∧
    (dueAt n m (k + 1) = dueAt n m k + n / m ∨ dueAt n m (k + 1) = dueAt n m k + n / m + 1) := by
  refine ⟨dueAt_strict n m k hm hk, ?_⟩
  rw [dueAt_succ]
  split
  · exact .inr rfl
  · exact .inl rfl

/-- C27, the last line is printed exactly at iteration `n`; it reads `m/m` (100%) exactly when
`n ≥ m`. -/
theorem C27_last_line (n m : Nat) (hn : 0 < n) (hm : 0 < m) :
    (runLoop n m).getLast? = some (n, min n m) ∧
    ((runLoop n m).getLast? = some (n, m) ↔ m ≤ n) := by
  have h : (runLoop n m).getLast? = some (n, min n m) := by
    rw [C27_lines_partial n m hm]
    obtain ⟨k, hk⟩ : ∃ k, min n m = k + 1 := ⟨min n m - 1, by omega⟩
    rw [hk, List.range'_1_concat, List.map_append, List.map_singleton, List.getLast?_concat,
      show 1 + k = k + 1 from by omega, ← hk, dueAt_min n m hm]
  refine ⟨h, ?_⟩
  rw [h]
  simp only [Option.some.injEq, Prod.mk.injEq, true_and]
  omega

/-- C27 as stated is refuted: one iteration with two lines wanted prints only "1/2". -/
theorem C27_refuted : runLoop 1 2 = [(1, 1)] := by decide

example : runLoop 10 4 = [(3, 1), (6, 2), (8, 3), (10, 4)] := by decide
example : runLoop 3 5 = [(1, 1), (2, 2), (3, 3)] := by decide

/-! ### C28: concurrent calls -/

/-- C28, the correct part: calls that do not overlap print the counters 1, 2, 3, … each once,
whatever their arguments and order.
Missing: overlapping calls, see `C28_refuted`. -/
theorem C28_undisturbed_partial (n m : Nat) (is : List Nat) :
    ∃ c, calls (newTracker n m) is = List.range' 1 c := by
  rw [newTracker_eq]
  have key : ∀ (is : List Nat) (k : Nat), ∃ c, calls (trackerAt n m k) is = List.range' k c := by
    intro is
    induction is with
    | nil => intro k; exact ⟨0, rfl⟩
    | cons i is ih =>
      intro k
      rw [calls]
      by_cases h : i < (trackerAt n m k).next
      · simp only [printProgress, if_pos h]
        exact ih k
      · simp only [printProgress, if_neg h, updateNext_at]
        obtain ⟨c, hc⟩ := ih (k + 1)
        exact ⟨c + 1, by rw [hc, List.range'_succ]; rfl⟩
  exact key is 1

/-- What holds in every reachable state: the tracker has been updated `k - 1` times beyond its
start, and every index read or printed lies between 1 and what the tracker allows. -/
structure ConcInv (n m : Nat) (s : Conc) (k : Nat) : Prop where
  tr : s.tr = trackerAt n m k
  pos : 1 ≤ k
  bound : k ≤ m + 1
  got : ∀ j c, s.pc j = .got c → 1 ≤ c ∧ c ≤ k
  printing : ∀ j c, s.pc j = .printing c → 1 ≤ c ∧ c ≤ m
  printed : ∀ c ∈ s.printed, 1 ≤ c ∧ c ≤ m

theorem due_beyond (n m k : Nat) (hm : 0 < m) (hmn : m ≤ n) (hk : m < k) : n < dueAt n m k := by
  have h1 : dueAt n m (m + 1) ≤ dueAt n m k := dueAt_mono n m hk
  have h2 : dueAt n m (m + 1) = n + n / m := by
    rw [dueAt_succ, dueAt_last n m hm, if_neg (by have := Nat.mod_lt n hm; omega), Nat.add_zero]
  have : 0 < n / m := Nat.div_pos hmn hm
  omega

theorem conc_step_inv (n m : Nat) (hm : 0 < m) (hmn : m ≤ n) (arg : Nat → Nat) (harg : ∀ k, arg k ≤ n)
    (s : Conc) (k j : Nat) (h : ConcInv n m s k) : ∃ k', k ≤ k' ∧ ConcInv n m (concStep arg s j) k' := by
  obtain ⟨h1, h2, h3, h4, h5, h6⟩ := h
  unfold concStep
  split
  · rename_i hp
    refine ⟨k, Nat.le_refl _, h1, h2, h3, ?_, ?_, h6⟩
    · intro i c hc
      simp only at hc
      split at hc
      · cases hc
        rw [h1]
        exact ⟨h2, Nat.le_refl _⟩
      · exact h4 i c hc
    · intro i c hc
      simp only at hc
      split at hc
      · cases hc
      · exact h5 i c hc
  · rename_i c hp
    split
    · refine ⟨k, Nat.le_refl _, h1, h2, h3, ?_, ?_, h6⟩
      · intro i c hc
        simp only at hc
        split at hc
        · cases hc
        · exact h4 i c hc
      · intro i c hc
        simp only at hc
        split at hc
        · cases hc
        · exact h5 i c hc
    · rename_i hge
      have hkm : k ≤ m := by
        rcases Nat.lt_or_ge m k with hlt | hge'
        · exfalso
          apply hge
          rw [h1]
          exact Nat.lt_of_le_of_lt (harg j) (due_beyond n m k hm hmn hlt)
        · exact hge'
      have hc := h4 j c hp
      refine ⟨k + 1, by omega, by rw [h1, updateNext_at], by omega, by omega, ?_, ?_, h6⟩
      · intro i c' hc'
        simp only at hc'
        split at hc'
        · cases hc'
        · have := h4 i c' hc'
          exact ⟨this.1, by omega⟩
      · intro i c' hc'
        simp only at hc'
        split at hc'
        · cases hc'
          exact ⟨hc.1, by omega⟩
        · exact h5 i c' hc'
  · rename_i c hp
    have hc := h5 j c hp
    refine ⟨k, Nat.le_refl _, h1, h2, h3, ?_, ?_, ?_⟩
    · intro i c hc
      simp only at hc
      split at hc
      · cases hc
      · exact h4 i c hc
    · intro i c hc
      simp only at hc
      split at hc
      · cases hc
      · exact h5 i c hc
    · intro x hx
      rcases List.mem_append.1 hx with hx | hx
      · exact h6 x hx
      · simp only [List.mem_cons, List.not_mem_nil, or_false] at hx
        rw [hx]
        exact hc
  · exact ⟨k, Nat.le_refl _, h1, h2, h3, h4, h5, h6⟩

/-- C28, what holds for every schedule of any number of calls with arguments up to `n`
(`1 ≤ m ≤ n`): only counters from 1 to `m` are printed. -/
theorem C28_counters_in_range_partial (n m : Nat) (hm : 0 < m) (hmn : m ≤ n) (arg : Nat → Nat)
    (harg : ∀ k, arg k ≤ n) (sched : List Nat) :
    ∀ c ∈ (concRun arg (concInit n m) sched).printed, 1 ≤ c ∧ c ≤ m := by
  have key : ∀ (sched : List Nat) (s : Conc) (k : Nat), ConcInv n m s k →
      ∃ k', ConcInv n m (concRun arg s sched) k' := by
    intro sched
    induction sched with
    | nil => intro s k h; exact ⟨k, h⟩
    | cons j js ih =>
      intro s k h
      obtain ⟨k', -, h'⟩ := conc_step_inv n m hm hmn arg harg s k j h
      exact ih _ _ h'
  obtain ⟨k, hk⟩ := key sched (concInit n m) 1 ⟨newTracker_eq n m, Nat.le_refl _, by omega,
    (by intro j c h; cases h), (by intro j c h; cases h), (by intro c h; cases h)⟩
  exact hk.printed

/-- Lines still to be printed by the calls that passed the critical section, among the first
`b` calls. -/
def pending (s : Conc) (b : Nat) : Nat :=
  ((List.range b).filter (fun j => match s.pc j with | .printing _ => true | _ => false)).length

theorem filter_update {p q : Nat → Bool} {b k : Nat} (hk : k < b) (hp : p k = false) (hq : q k = true)
    (hs : ∀ j, j ≠ k → p j = q j) :
    ((List.range b).filter q).length = ((List.range b).filter p).length + 1 := by
  induction b with
  | zero => omega
  | succ b ih =>
    rw [List.range_succ, List.filter_append, List.filter_append, List.length_append, List.length_append]
    by_cases hb : k = b
    · subst hb
      have : (List.range k).filter q = (List.range k).filter p := by
        apply List.filter_congr
        intro x hx
        have := List.mem_range.1 hx
        exact (hs x (by omega)).symm
      rw [this]
      simp [hp, hq]
    · have := ih (by omega)
      rw [this]
      have e := hs b (fun h => hb h.symm)
      simp only [List.filter_cons, List.filter_nil, e]
      omega

/-- The number of lines printed or about to be printed is the number of updates. -/
def Counted (n m b : Nat) (s : Conc) : Prop :=
  ∃ k, s.tr = trackerAt n m (k + 1) ∧ s.printed.length + pending s b = k ∧ k ≤ m ∧
    ∀ j, b ≤ j → s.pc j = .start

theorem counted_step (n m b : Nat) (hm : 0 < m) (hmn : m ≤ n) (arg : Nat → Nat) (harg : ∀ k, arg k ≤ n)
    (s : Conc) (j : Nat) (hj : j < b) (h : Counted n m b s) : Counted n m b (concStep arg s j) := by
  obtain ⟨k, h1, h2, h3, h4⟩ := h
  have hsame : ∀ (f : Pc), (∀ c, f ≠ .printing c) → (∀ c, s.pc j ≠ .printing c) →
      pending ⟨s.tr, fun i => if i = j then f else s.pc i, s.printed⟩ b = pending s b := by
    intro f hf hs
    unfold pending
    congr 1
    apply List.filter_congr
    intro x _
    by_cases e : x = j
    · subst e
      cases f <;> cases hx : s.pc x <;> simp_all
    · simp only [if_neg e]
  unfold concStep
  split
  · rename_i hp
    refine ⟨k, h1, ?_, h3, ?_⟩
    · show s.printed.length + pending ⟨s.tr, fun i => if i = j then .got s.tr.nextindex else s.pc i, s.printed⟩ b = k
      rw [hsame _ (by simp) (by simp [hp])]
      exact h2
    · intro i hi
      show (if i = j then _ else s.pc i) = _
      rw [if_neg (by omega)]
      exact h4 i hi
  · rename_i c hp
    split
    · refine ⟨k, h1, ?_, h3, ?_⟩
      · show s.printed.length + pending ⟨s.tr, fun i => if i = j then .done else s.pc i, s.printed⟩ b = k
        rw [hsame _ (by simp) (by simp [hp])]
        exact h2
      · intro i hi
        show (if i = j then _ else s.pc i) = _
        rw [if_neg (by omega)]
        exact h4 i hi
    · rename_i hge
      have hkm : k + 1 ≤ m := by
        rcases Nat.lt_or_ge m (k + 1) with hlt | hge'
        · exfalso
          apply hge
          rw [h1]
          exact Nat.lt_of_le_of_lt (harg j) (due_beyond n m (k + 1) hm hmn hlt)
        · exact hge'
      refine ⟨k + 1, ?_, ?_, hkm, ?_⟩
      · show updateNext s.tr = _
        rw [h1, updateNext_at]
      · have : pending ⟨updateNext s.tr, fun i => if i = j then .printing c else s.pc i, s.printed⟩ b =
            pending s b + 1 := by
          unfold pending
          refine filter_update (p := fun i => match s.pc i with | .printing _ => true | _ => false)
            (q := fun i => match (if i = j then Pc.printing c else s.pc i) with | .printing _ => true | _ => false)
            (k := j) hj ?_ ?_ ?_
          · simp only [hp]
          · simp
          · intro i hi
            simp only [if_neg hi]
        show s.printed.length + pending ⟨updateNext s.tr, fun i => if i = j then .printing c else s.pc i, s.printed⟩ b = k + 1
        rw [this]
        omega
      · intro i hi
        show (if i = j then _ else s.pc i) = _
        rw [if_neg (by omega)]
        exact h4 i hi
  · rename_i c hp
    refine ⟨k, h1, ?_, h3, ?_⟩
    · have : pending s b = pending ⟨s.tr, fun i => if i = j then .done else s.pc i, s.printed ++ [c]⟩ b + 1 := by
        unfold pending
        refine filter_update (q := fun i => match s.pc i with | .printing _ => true | _ => false)
          (p := fun i => match (if i = j then Pc.done else s.pc i) with | .printing _ => true | _ => false)
          (k := j) hj ?_ ?_ ?_
        · simp
        · simp only [hp]
        · intro i hi
          simp only [if_neg hi]
      show (s.printed ++ [c]).length + pending ⟨s.tr, fun i => if i = j then .done else s.pc i, s.printed ++ [c]⟩ b = k
      rw [List.length_append, List.length_singleton]
      omega
    · intro i hi
      show (if i = j then _ else s.pc i) = _
      rw [if_neg (by omega)]
      exact h4 i hi
  · exact ⟨k, h1, h2, h3, h4⟩

/-- C28, for every schedule of any number of calls: never more than `m` lines in total, although
some may carry the same number. -/
theorem C28_line_count_partial (n m : Nat) (hm : 0 < m) (hmn : m ≤ n) (arg : Nat → Nat)
    (harg : ∀ k, arg k ≤ n) (sched : List Nat) :
    (concRun arg (concInit n m) sched).printed.length ≤ m := by
  obtain ⟨b, hb⟩ : ∃ b, ∀ j ∈ sched, j < b := by
    clear harg
    induction sched with
    | nil => exact ⟨0, by intro j h; cases h⟩
    | cons x l ih =>
      obtain ⟨b, hb⟩ := ih
      refine ⟨max b (x + 1), ?_⟩
      intro j hj
      rcases List.mem_cons.1 hj with rfl | hj
      · omega
      · have := hb j hj; omega
  have key : ∀ (l : List Nat) (s : Conc), (∀ j ∈ l, j < b) → Counted n m b s →
      Counted n m b (concRun arg s l) := by
    intro l
    induction l with
    | nil => intro s _ h; exact h
    | cons j l ih =>
      intro s hl h
      exact ih _ (fun x hx => hl x (by simp [hx])) (counted_step n m b hm hmn arg harg s j (hl j (by simp)) h)
  have h0 : Counted n m b (concInit n m) := by
    refine ⟨0, newTracker_eq n m, ?_, Nat.zero_le _, fun _ _ => rfl⟩
    unfold pending concInit
    simp
  obtain ⟨k, -, h2, h3, -⟩ := key sched _ hb h0
  omega

/-- C28 as stated is refuted: two calls (iterations 1 and 2 of 2, two lines wanted) that both
read the counter before either enters the critical section print line 1 twice. -/
theorem C28_refuted :
    (concRun (fun k => k + 1) (concInit 2 2) [0, 1, 0, 1, 0, 1]).printed = [1, 1] := by decide

/-- The same calls one after the other print lines 1 and 2. -/
example : (concRun (fun k => k + 1) (concInit 2 2) [0, 0, 0, 1, 1, 1]).printed = [1, 2] := by decide

/-! ### C66: time strings -/

/-- C66: for every duration and every largest unit, the parts shown by the progress tracker add
up to the duration. -/
theorem C66_parts_add_up (msec : Int) (tu : TimeUnit) :
    let p := timeParts msec tu
    ((((p.days * 24 + p.hours) * 60 + p.mins) * 60 + p.secs) * 1000 + p.msecs) = msec := by
  cases tu <;> simp only [timeParts, TimeUnit.toNat] <;> simp <;> omega

/-- C66: for non-negative durations every part below the largest unit is within its bound. -/
theorem C66_parts_bounded (msec : Int) (tu : TimeUnit) (h : 0 ≤ msec) :
    let p := timeParts msec tu
    0 ≤ p.days ∧ 0 ≤ p.hours ∧ 0 ≤ p.mins ∧ 0 ≤ p.secs ∧ 0 ≤ p.msecs ∧
    (tu = .days → p.hours < 24) ∧
    (tu = .days ∨ tu = .hours → p.mins < 60) ∧
    (tu = .days ∨ tu = .hours ∨ tu = .minutes → p.secs < 60) ∧
    (tu ≠ .milliseconds → p.msecs < 1000) := by
  have td : ∀ (a b : Int), 0 ≤ a → Int.tdiv a b = a / b := fun a b h => Int.tdiv_eq_ediv_of_nonneg h
  cases tu
  · simp only [timeParts, TimeUnit.toNat]
    simp
    rw [td msec _ h, td (msec - msec / 86400000 * 86400000) _ (by omega)]
    rw [td (msec - msec / 86400000 * 86400000 - (msec - msec / 86400000 * 86400000) / 3600000 * 3600000) _ (by omega)]
    rw [td _ 1000 (by omega)]
    omega
  · simp only [timeParts, TimeUnit.toNat]
    simp
    rw [td msec _ h, td (msec - msec / 3600000 * 3600000) _ (by omega), td _ 1000 (by omega)]
    omega
  · simp only [timeParts, TimeUnit.toNat]
    simp
    rw [td msec _ h, td _ 1000 (by omega)]
    omega
  · simp only [timeParts, TimeUnit.toNat]
    simp
    rw [td msec _ h]
    omega
  · simp only [timeParts, TimeUnit.toNat]
    simp
    omega

/-- Just over a day, with the default largest unit (hours) and with days. -/
example : timeParts 90061001 .hours = ⟨0, 25, 1, 1, 1⟩ ∧ timeParts 90061001 .days = ⟨1, 1, 1, 1, 1⟩ := by
  decide

end Softlib
