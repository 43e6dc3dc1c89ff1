/-
C161: the memory of tabulated momentum distributions.  Model: TableMemModel.lean.
-/
import Mathlib.Data.List.Nodup
import Mathlib.Tactic.SplitIfs
import Verif.Dist.TableMemModel

namespace Softlib

open Dist.TableMem

/-- An object points to the block. -/
def HeldBy (o : Obj) (b : Nat) : Prop := b ∈ o.gsl ∨ o.logf = some b

/-- The block is allocated, and no object that exists points to it: nothing can release it any more. -/
def LostBlock (s : St) (b : Nat) : Prop := b ∈ s.live ∧ ∀ (i : Nat) (o : Obj), s.objs[i]? = some (some o) → ¬ HeldBy o b

/-- What an operation allocates: two accelerators and a spline; an array for logarithms; the object of a failed clone. -/
def allocated : Op → Outcome → Nat
  | .init _ _ _, .done => 3
  | .initLog _ _ _ _, .done => 4
  | .initLog _ _ _ _, .throws => 1
  | .clone _, .done => 3
  | .clone _, .throws => 1
  | _, _ => 0

/-- What holds in every state a program can come to. -/
structure Sound (s : St) : Prop where
  below : ∀ b ∈ s.live, b < s.next
  nodup : s.live.Nodup
  held : ∀ (i : Nat) (o : Obj), s.objs[i]? = some (some o) → ∀ b, HeldBy o b → b ∈ s.live
  apart : ∀ (i j : Nat) (o o' : Obj), s.objs[i]? = some (some o) → s.objs[j]? = some (some o') → i ≠ j → ∀ b ∈ o.gsl, b ∉ o'.gsl

theorem alloc_mem (s : St) (n b : Nat) : b ∈ s.alloc n ↔ s.next ≤ b ∧ b < s.next + n := by
  simp only [St.alloc, List.mem_map, List.mem_range]
  constructor
  · rintro ⟨a, ha, rfl⟩; omega
  · rintro ⟨h1, h2⟩; exact ⟨b - s.next, by omega, by omega⟩

theorem alloc_length (s : St) (n : Nat) : (s.alloc n).length = n := by simp [St.alloc]

theorem alloc_nodup (s : St) (n : Nat) : (s.alloc n).Nodup := by
  unfold St.alloc
  exact List.Nodup.map (fun a b h => by simpa using h) List.nodup_range

/-- New blocks are new. -/
theorem live_alloc {s : St} (h : Sound s) (n : Nat) :
    (∀ b ∈ s.alloc n ++ s.live, b < s.next + n) ∧ (s.alloc n ++ s.live).Nodup := by
  constructor
  · intro b hb
    rcases List.mem_append.1 hb with h1 | h1
    · exact ((alloc_mem s n b).1 h1).2
    · have := h.below b h1; omega
  · refine List.nodup_append.2 ⟨alloc_nodup s n, h.nodup, ?_⟩
    rintro a ha b hb rfl
    have := (alloc_mem s n a).1 ha
    have := h.below a hb
    omega

/-- An object whose pointers are those it had or new blocks. -/
theorem sound_put {s : St} (h : Sound s) {i n : Nat} {o o' : Obj} (ho : s.objs[i]? = some (some o))
    (hg : ∀ b ∈ o'.gsl, b ∈ o.gsl ∨ b ∈ s.alloc n) (hl : ∀ b, o'.logf = some b → o.logf = some b ∨ b ∈ s.alloc n) : Sound (s.put i n o') := by
  obtain ⟨h1, h2⟩ := live_alloc h n
  have hi : i < s.objs.length := (List.getElem?_eq_some_iff.1 ho).1
  have get : ∀ (j : Nat) (q : Obj), (s.objs.set i (some o'))[j]? = some (some q) → (j = i ∧ q = o') ∨ (j ≠ i ∧ s.objs[j]? = some (some q)) := by
    intro j q hq
    rw [List.getElem?_set] at hq
    by_cases hij : i = j
    · subst hij
      rw [if_pos rfl, if_pos hi] at hq
      exact .inl ⟨rfl, by injection hq with hq; injection hq with hq; exact hq.symm⟩
    · rw [if_neg hij] at hq
      exact .inr ⟨fun h => hij h.symm, hq⟩
  refine ⟨h1, h2, ?_, ?_⟩
  · intro j q hq b hb
    show b ∈ s.alloc n ++ s.live
    rcases get j q hq with ⟨-, rfl⟩ | ⟨-, hq⟩
    · rcases hb with hb | hb
      · rcases hg b hb with hb | hb
        · exact List.mem_append_right _ (h.held i o ho b (.inl hb))
        · exact List.mem_append_left _ hb
      · rcases hl b hb with hb | hb
        · exact List.mem_append_right _ (h.held i o ho b (.inr hb))
        · exact List.mem_append_left _ hb
    · exact List.mem_append_right _ (h.held j q hq b hb)
  · have fresh : ∀ (j : Nat) (q : Obj), s.objs[j]? = some (some q) → ∀ b ∈ s.alloc n, b ∉ q.gsl := by
      intro j q hq b hb hbq
      have := h.below b (h.held j q hq b (.inl hbq))
      have := (alloc_mem s n b).1 hb
      omega
    intro j k q q' hq hq' hjk b hb hb'
    rcases get j q hq with ⟨e1, rfl⟩ | ⟨e1, hq2⟩ <;> rcases get k q' hq' with ⟨e2, e3⟩ | ⟨e2, hq'⟩
    · omega
    · rcases hg b hb with hb | hb
      · exact h.apart i k o q' ho hq' (fun h => e2 h.symm) b hb hb'
      · exact fresh k q' hq' b hb hb'
    · subst e3
      rcases hg b hb' with hb' | hb'
      · exact h.apart j i q o hq2 ho e1 b hb hb'
      · exact fresh j q hq2 b hb' hb
    · exact h.apart j k q q' hq2 hq' hjk b hb hb'

/-- A new object whose pointers are new, or shared arrays of logarithms. -/
theorem sound_add {s : St} (h : Sound s) {n : Nat} {o' : Obj} (hg : ∀ b ∈ o'.gsl, b ∈ s.alloc n) (hl : ∀ b, o'.logf = some b → b ∈ s.live) :
    Sound ⟨s.objs ++ [some o'], s.alloc n ++ s.live, s.next + n, s.freed⟩ := by
  obtain ⟨h1, h2⟩ := live_alloc h n
  have get : ∀ (j : Nat) (q : Obj), (s.objs ++ [some o'])[j]? = some (some q) → (j = s.objs.length ∧ q = o') ∨ (j < s.objs.length ∧ s.objs[j]? = some (some q)) := by
    intro j q hq
    by_cases hj : j < s.objs.length
    · rw [List.getElem?_append_left hj] at hq; exact .inr ⟨hj, hq⟩
    · have hlen := (List.getElem?_eq_some_iff.1 hq).1
      simp only [List.length_append, List.length_singleton] at hlen
      obtain rfl : j = s.objs.length := by omega
      rw [List.getElem?_append_right (Nat.le_refl _)] at hq
      simp at hq
      exact .inl ⟨rfl, hq.symm⟩
  have fresh : ∀ (j : Nat) (q : Obj), s.objs[j]? = some (some q) → ∀ b ∈ s.alloc n, b ∉ q.gsl := by
    intro j q hq b hb hbq
    have := h.below b (h.held j q hq b (.inl hbq))
    have := (alloc_mem s n b).1 hb
    omega
  refine ⟨h1, h2, ?_, ?_⟩
  · intro j q hq b hb
    show b ∈ s.alloc n ++ s.live
    rcases get j q hq with ⟨-, rfl⟩ | ⟨-, hq⟩
    · rcases hb with hb | hb
      · exact List.mem_append_left _ (hg b hb)
      · exact List.mem_append_right _ (hl b hb)
    · exact List.mem_append_right _ (h.held j q hq b hb)
  · intro j k q q' hq hq' hjk b hb hb'
    rcases get j q hq with ⟨e1, rfl⟩ | ⟨e1, hq2⟩ <;> rcases get k q' hq' with ⟨e2, e3⟩ | ⟨e2, hq'⟩
    · omega
    · exact fresh k q' hq' b (hg b hb) hb'
    · subst e3; exact fresh j q hq2 b (hg b hb') hb
    · exact h.apart j k q q' hq2 hq' hjk b hb hb'

theorem step_sound {s s' : St} {op : Op} {r : Outcome} (h : Sound s) (hs : step s op = some (r, s')) :
    Sound s' ∧ s'.live.length = allocated op r + s.live.length ∧ ∀ b ∈ s.live, b ∈ s'.live := by
  have al := alloc_length s
  cases op with
  | create =>
    simp only [step, Option.some.injEq, Prod.mk.injEq] at hs
    obtain ⟨rfl, rfl⟩ := hs
    have := sound_add h (n := 0) (o' := ⟨[], none, none⟩) (by simp) (by simp)
    exact ⟨by simpa [St.alloc] using this, by simp [allocated], fun b hb => hb⟩
  | init i a ordered =>
    simp only [step] at hs
    split at hs
    · rename_i o ho
      split_ifs at hs with h1 h2
      · simp only [Option.some.injEq, Prod.mk.injEq] at hs
        obtain ⟨rfl, rfl⟩ := hs
        exact ⟨sound_put h ho (fun b hb => .inr hb) (by simp), by simp [St.put, allocated, al], fun b hb => List.mem_append_right _ hb⟩
      · simp only [Option.some.injEq, Prod.mk.injEq] at hs
        obtain ⟨rfl, rfl⟩ := hs
        exact ⟨sound_put h ho (fun b hb => .inl hb) (by simp), by simp [St.put, allocated, al], fun b hb => List.mem_append_right _ hb⟩
    · cases hs
  | initLog i a negative ordered =>
    simp only [step] at hs
    split at hs
    · rename_i o ho
      split_ifs at hs with h1 h2 h3
      · simp only [Option.some.injEq, Prod.mk.injEq] at hs
        obtain ⟨rfl, rfl⟩ := hs
        exact ⟨sound_put h ho (fun b hb => .inl hb) (fun b hb => .inl hb), by simp [St.put, allocated, al],
          fun b hb => List.mem_append_right _ hb⟩
      · simp only [Option.some.injEq, Prod.mk.injEq] at hs
        obtain ⟨rfl, rfl⟩ := hs
        refine ⟨sound_put h ho (fun b hb => .inr (List.mem_of_mem_drop hb)) ?_, by simp [St.put, allocated, al],
          fun b hb => List.mem_append_right _ hb⟩
        intro b hb
        simp only [Option.some.injEq] at hb
        exact .inr ((alloc_mem s 4 b).2 (by omega))
      · simp only [Option.some.injEq, Prod.mk.injEq] at hs
        obtain ⟨rfl, rfl⟩ := hs
        refine ⟨sound_put h ho (fun b hb => .inl hb) ?_, by simp [St.put, allocated, al], fun b hb => List.mem_append_right _ hb⟩
        intro b hb
        simp only [Option.some.injEq] at hb
        exact .inr ((alloc_mem s 1 b).2 (by omega))
    · cases hs
  | clone i =>
    simp only [step] at hs
    split at hs
    · rename_i o ho
      split at hs
      · cases hs
      · rename_i a ordered ha
        split_ifs at hs with h1 h2
        · simp only [Option.some.injEq, Prod.mk.injEq] at hs
          obtain ⟨rfl, rfl⟩ := hs
          exact ⟨sound_add h (fun b hb => hb) (fun b hb => h.held i o ho b (.inr hb)), by simp [allocated, al],
            fun b hb => List.mem_append_right _ hb⟩
        · simp only [Option.some.injEq, Prod.mk.injEq] at hs
          obtain ⟨rfl, rfl⟩ := hs
          obtain ⟨k1, k2⟩ := live_alloc h 1
          exact ⟨⟨k1, k2, fun j q hq b hb => List.mem_append_right _ (h.held j q hq b hb), h.apart⟩, by simp [allocated, al],
            fun b hb => List.mem_append_right _ hb⟩
    · cases hs
  | eval i =>
    simp only [step] at hs
    split at hs
    · split_ifs at hs
      simp only [Option.some.injEq, Prod.mk.injEq] at hs
      obtain ⟨rfl, rfl⟩ := hs
      exact ⟨h, by simp [allocated], fun b hb => hb⟩
    · cases hs
  | destroy i =>
    simp only [step] at hs
    split at hs
    · simp only [Option.some.injEq, Prod.mk.injEq] at hs
      obtain ⟨rfl, rfl⟩ := hs
      have get : ∀ (j : Nat) (q : Obj), (s.objs.set i none)[j]? = some (some q) → s.objs[j]? = some (some q) := by
        intro j q hq
        rw [List.getElem?_set] at hq
        split_ifs at hq
        · simp at hq
        · exact hq
      exact ⟨⟨h.below, h.nodup, fun j q hq => h.held j q (get j q hq), fun j k q q' hq hq' => h.apart j k q q' (get j q hq) (get k q' hq')⟩,
        by simp [allocated], fun b hb => hb⟩
    · cases hs
  | release a =>
    simp only [step] at hs
    split_ifs at hs
    simp only [Option.some.injEq, Prod.mk.injEq] at hs
    obtain ⟨rfl, rfl⟩ := hs
    exact ⟨⟨h.below, h.nodup, h.held, h.apart⟩, by simp [allocated], fun b hb => hb⟩

/-- What a sequence of operations allocates. -/
def allocatedBy : List Op → List Outcome → Nat
  | op :: ops, r :: rs => allocated op r + allocatedBy ops rs
  | _, _ => 0

theorem run_sound (ops : List Op) : ∀ {s s' : St} {rs : List Outcome}, Sound s → run s ops = some (rs, s') →
    Sound s' ∧ s'.live.length = allocatedBy ops rs + s.live.length ∧ ∀ b ∈ s.live, b ∈ s'.live := by
  induction ops with
  | nil =>
    intro s s' rs h hr
    simp only [run, Option.some.injEq, Prod.mk.injEq] at hr
    obtain ⟨rfl, rfl⟩ := hr
    exact ⟨h, by simp [allocatedBy], fun b hb => hb⟩
  | cons op ops ih =>
    intro s s' rs h hr
    simp only [run] at hr
    split at hr
    · cases hr
    · rename_i r s1 hs
      split at hr
      · cases hr
      · rename_i rs' s2 hr'
        simp only [Option.some.injEq, Prod.mk.injEq] at hr
        obtain ⟨rfl, rfl⟩ := hr
        obtain ⟨a1, a2, a3⟩ := step_sound h hs
        obtain ⟨b1, b2, b3⟩ := ih a1 hr'
        exact ⟨b1, by rw [b2, a2, allocatedBy]; omega, fun b hb => b3 b (a3 b hb)⟩

theorem start_sound : Sound start := ⟨by simp [start], by simp [start], by simp [start], by simp [start]⟩

/-- C161, evaluation: in every program, an object that has been initialised once can be evaluated: its spline is there, whatever happened to
other objects, clones and the arrays of the caller. -/
theorem C161_eval_partial (ops : List Op) (rs : List Outcome) (s : St) (h : run start ops = some (rs, s)) (i : Nat) (o : Obj)
    (ho : s.objs[i]? = some (some o)) (hg : o.gsl ≠ []) : step s (.eval i) = some (.done, s) := by
  have hs := (run_sound ops start_sound h).1
  simp only [step, ho]
  rw [if_neg]
  rintro (h1 | h1)
  · exact hg h1
  · exact h1 fun b hb => hs.held i o ho b (.inl hb)

/-- C161, separation: no two objects share an accelerator or a spline; clones have their own. -/
theorem C161_separate_partial (ops : List Op) (rs : List Outcome) (s : St) (h : run start ops = some (rs, s)) (i j : Nat) (o o' : Obj)
    (ho : s.objs[i]? = some (some o)) (ho' : s.objs[j]? = some (some o')) (hij : i ≠ j) : ∀ b ∈ o.gsl, b ∉ o'.gsl :=
  (run_sound ops start_sound h).1.apart i j o o' ho ho' hij

/-- C161, exactly: nothing is ever released.  After any program the blocks allocated are three for every initialisation and every clone, one
more for logarithms, one for every initialisation with logarithms that throws, and one for every clone that throws. -/
theorem C161_exact (ops : List Op) (rs : List Outcome) (s : St) (h : run start ops = some (rs, s)) :
    s.live.length = allocatedBy ops rs ∧ s.live.Nodup := by
  obtain ⟨h1, h2, -⟩ := run_sound ops start_sound h
  exact ⟨by simpa [start] using h2, h1.nodup⟩

/-- C161 (refuted): when all objects have been destroyed, everything that was ever allocated is lost. -/
theorem C161_refuted (ops : List Op) (rs : List Outcome) (s : St) (h : run start ops = some (rs, s))
    (hd : ∀ (i : Nat) (o : Obj), s.objs[i]? ≠ some (some o)) : (∀ b ∈ s.live, LostBlock s b) ∧ s.live.length = allocatedBy ops rs :=
  ⟨fun _ hb => ⟨hb, fun i o ho => absurd ho (hd i o)⟩, (C161_exact ops rs s h).1⟩

/-- C161 (refuted), one object: made, initialised and destroyed it leaves three blocks behind, four with logarithms. -/
theorem C161_refuted_one : (∃ rs s, run start [.create, .init 0 0 true, .destroy 0] = some (rs, s) ∧ s.live.length = 3) ∧
    ∃ rs s, run start [.create, .initLog 0 0 false true, .destroy 0] = some (rs, s) ∧ s.live.length = 4 :=
  ⟨⟨_, _, rfl, rfl⟩, ⟨_, _, rfl, rfl⟩⟩

/-- C161 (refuted), initialising again: what an object held before is lost. -/
theorem C161_refuted_again (s s' : St) (hs : Sound s) (i a : Nat) (o : Obj) (ho : s.objs[i]? = some (some o)) (b : Nat) (hb : b ∈ o.gsl)
    (h : step s (.init i a true) = some (.done, s')) (hshare : ∀ (j : Nat) (o' : Obj), s.objs[j]? = some (some o') → o'.logf ≠ some b) :
    LostBlock s' b := by
  have hlive := hs.held i o ho b (.inl hb)
  have hi : i < s.objs.length := (List.getElem?_eq_some_iff.1 ho).1
  simp only [step, ho] at h
  split_ifs at h with h1
  simp only [Option.some.injEq, Prod.mk.injEq, true_and] at h
  subst h
  refine ⟨List.mem_append_right _ hlive, ?_⟩
  intro j q hq hh
  simp only [St.put, List.getElem?_set] at hq
  by_cases hij : i = j
  · subst hij
    rw [if_pos rfl, if_pos hi] at hq
    simp only [Option.some.injEq] at hq
    subst hq
    rcases hh with hh | hh
    · have := (alloc_mem s 3 b).1 hh
      have := hs.below b hlive
      omega
    · simp at hh
  · rw [if_neg hij] at hq
    rcases hh with hh | hh
    · exact hs.apart i j o q ho hq hij b hb hh
    · exact hshare j q hq hh

/-- C161, clones: they are made from the arrays of the caller, not from the spline; after these have been released an object can be
evaluated but not cloned. -/
theorem C161_clone_needs_arrays (s : St) (i a : Nat) (o : Obj) (ho : s.objs[i]? = some (some o)) (t : Bool) (ha : o.arr = some (a, t))
    (hf : a ∈ s.freed) : step s (.clone i) = none := by
  simp only [step, ho, ha, if_pos hf]

example : ∃ rs s, run start [.create, .init 0 7 true, .release 7, .eval 0] = some (rs, s) ∧ step s (.clone 0) = none := ⟨_, _, rfl, rfl⟩

/-- A program with several objects that the theorems apply to. -/
example : ∃ rs s, run start [.create, .initLog 0 1 false true, .clone 0, .eval 1, .init 0 2 false, .clone 0, .destroy 0, .eval 1, .destroy 1] = some (rs, s) ∧
    s.live.length = 8 := ⟨_, _, rfl, rfl⟩

end Softlib
