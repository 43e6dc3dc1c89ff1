/-
C136: integrators report calls that come out of order.
-/
import Verif.Integrator.OrderModel
import Mathlib.Data.List.Basic
import Mathlib.Order.Basic

namespace Softlib
open Softlib.Integrator Softlib.Integrator.Order

variable {F α : Type}

/-! ### what is meant -/

/-- What the calls so far amount to: the functions of the equations, the equation chosen, the number of points of the present
integration and the largest number of points that there were so far, and the number of integrations. -/
structure Progress (F : Type) where
  functions : List (Option F)
  chosen : Option Nat
  points : Nat
  most : Nat
  integrations : Nat

def Progress.start : Progress F := ⟨[], none, 0, 0, 0⟩

/-- The function to integrate, if there is one. -/
def Progress.function (i : Progress F) : Option F := i.chosen.bind fun k => (i.functions[k]?).join

def Progress.next (i : Progress F) : Call F α → Progress F
  | .equation f => { i with functions := i.functions ++ [f] }
  | .derivative k f => { i with functions := i.functions.set k f }
  | .setEquation k => { i with chosen := k }
  | .initialValue => { i with points := 1, most := max i.most 1, integrations := i.integrations + 1 }
  | .step (some _) => { i with points := i.points + 1, most := max i.most (i.points + 1) }
  | _ => i

/-- After a sequence of calls. -/
def progress (cs : List (Call F α)) : Progress F := cs.foldl Progress.next Progress.start

/-- The calls that can be answered: there is a function to integrate, there is an initial value, there is such a point, there
are two points. -/
def Progress.Allows (i : Progress F) : Call F α → Prop
  | .initialValue => i.function.isSome
  | .step _ => i.function.isSome ∧ 0 < i.points
  | .lastTime => 0 < i.points
  | .lastSolution => 0 < i.points
  | .timeAt k => k < i.points
  | .outputDense ts => ts = [] ∨ 2 ≤ i.points
  | _ => True

/-- The answer belongs to the present integration: the last point, or the point asked for, or coefficients of its steps. -/
def Progress.Right (i : Progress F) : Call F α → Ans F α → Prop
  | .lastTime, a => ∃ e, a = .entry e ∧ e.of + 1 = i.integrations ∧ e.place + 1 = i.points
  | .lastSolution, a => ∃ e, a = .entry e ∧ e.of + 1 = i.integrations ∧ e.place + 1 = i.points
  | .timeAt k, a => ∃ e, a = .entry e ∧ e.of + 1 = i.integrations ∧ e.place = k
  | .outputDense ts, a => a = .thrown ∨ ∃ l, a = .poly l ∧ l.length = ts.length ∧ ∀ c ∈ l, c.1 + 1 = i.integrations ∧ c.2 + 1 < i.points
  | .step none, a => a = .thrown
  | _, a => a = .done

/-- The calls that are undefined. -/
def Progress.Undefined (i : Progress F) : Call F α → Prop
  | .initialValue => i.function = none
  | .step _ => i.function = none ∨ i.points = 0
  | .lastSolution => i.points = 0
  | .timeAt k => i.most ≤ k
  | .outputDense ts => ts ≠ [] ∧ i.most < 2
  | _ => False

/-- A sequence in which every call can be answered. -/
def InOrder : Progress F → List (Call F α) → Prop
  | _, [] => True
  | i, c :: cs => i.Allows c ∧ InOrder (i.next c) cs

/-- All answers are those of the present integration. -/
def AllRight : Progress F → List (Call F α) → List (Ans F α) → Prop
  | _, [], as => as = []
  | i, c :: cs, as => ∃ a rest, as = a :: rest ∧ i.Right c a ∧ AllRight (i.next c) cs rest

/-! ### what is stored -/

/-- The state of the integrator and the calls so far. -/
structure Tracks (s : St F α) (i : Progress F) : Prop where
  eqs : s.eqs = i.functions
  eqn : s.function = i.function
  eqn' : ∀ fs, St.function { s with eqs := fs } = i.chosen.bind fun k => (fs[k]?).join
  points : s.n = i.points
  most : s.arr.length = i.most
  le : s.n ≤ s.arr.length
  runs : s.runs = i.integrations
  none_ : s.n = 0 → s.runs = 0
  zero : s.runs = 0 → s.arr = []
  now : ∀ j (e : Entry F α), s.arr[j]? = some e → j < s.n → e.of + 1 = s.runs
  old : ∀ j (e : Entry F α), s.arr[j]? = some e → s.n ≤ j → e.of + 1 < s.runs
  place : ∀ j (e : Entry F α), s.arr[j]? = some e → e.place = j

theorem tracks_new : Tracks (St.new : St F α) Progress.start where
  eqs := rfl
  eqn := rfl
  eqn' := fun _ => rfl
  points := rfl
  most := rfl
  le := Nat.le_refl _
  runs := rfl
  none_ := fun _ => rfl
  zero := fun _ => rfl
  now := fun j e h => by simp [St.new] at h
  old := fun j e h => by simp [St.new] at h
  place := fun j e h => by simp [St.new] at h

theorem write_get (l : List (Entry F α)) (i : Nat) (e : Entry F α) (hi : i ≤ l.length) (j : Nat) :
    (write l i e)[j]? = if j = i then some e else l[j]? := by
  unfold write
  split_ifs with h1 h2 h2
  · subst h2; rw [List.getElem?_set_self h1]
  · rw [List.getElem?_set_ne (fun h => h2 h.symm)]
  · subst h2
    have : l.length = j := by omega
    rw [List.getElem?_append_right (by omega), this, Nat.sub_self]; rfl
  · by_cases hj : j < l.length
    · rw [List.getElem?_append_left hj]
    · rw [List.getElem?_eq_none (by rw [List.length_append, List.length_singleton]; omega), List.getElem?_eq_none (by omega)]

theorem write_length (l : List (Entry F α)) (i : Nat) (e : Entry F α) (hi : i ≤ l.length) :
    (write l i e).length = max l.length (i + 1) := by
  unfold write
  split_ifs with h
  · rw [List.length_set]; omega
  · rw [List.length_append, List.length_singleton]; omega

variable [Zero α]

theorem tracks_begun {s : St F α} {i : Progress F} (h : Tracks s i) (f : F) : Tracks (begun s f) (i.next (.initialValue : Call F α)) where
  eqs := h.eqs
  eqn := h.eqn
  eqn' := h.eqn'
  points := rfl
  most := by rw [begun, write_length _ _ _ (Nat.zero_le _), h.most]; rfl
  le := by rw [begun]; dsimp only; rw [write_length _ _ _ (Nat.zero_le _)]; omega
  runs := by rw [begun]; dsimp only; rw [h.runs]; rfl
  none_ := fun h0 => by simp [begun] at h0
  zero := fun h0 => by simp [begun] at h0
  now := fun j e he hj => by
    simp only [begun] at he hj ⊢
    rw [write_get _ _ _ (Nat.zero_le _), if_pos (by omega)] at he
    cases he; rfl
  old := fun j e he hj => by
    simp only [begun] at he hj ⊢
    rw [write_get _ _ _ (Nat.zero_le _), if_neg (by omega)] at he
    by_cases hn : j < s.n
    · have := h.now j e he hn; omega
    · have := h.old j e he (by omega); omega
  place := fun j e he => by
    simp only [begun] at he
    rw [write_get _ _ _ (Nat.zero_le _)] at he
    split_ifs at he with h0
    · cases he; exact h0.symm
    · exact h.place j e he

omit [Zero α] in
theorem tracks_stored {s : St F α} {i : Progress F} (h : Tracks s i) (hn : s.n ≠ 0) (t : α) (f : F) :
    Tracks (stored s t f) (i.next (.step (some t) : Call F α)) where
  eqs := h.eqs
  eqn := h.eqn
  eqn' := h.eqn'
  points := by rw [stored]; dsimp only; rw [h.points]; rfl
  most := by rw [stored]; dsimp only; rw [write_length _ _ _ h.le, h.most, h.points]; rfl
  le := by rw [stored]; dsimp only; rw [write_length _ _ _ h.le]; omega
  runs := h.runs
  none_ := fun h0 => by simp [stored] at h0
  zero := fun h0 => by
    have e := h.zero h0
    have := h.le
    rw [e] at this
    simp at this; omega
  now := fun j e he hj => by
    simp only [stored] at he hj ⊢
    rw [write_get _ _ _ h.le] at he
    split_ifs at he with h0
    · cases he
      have : s.runs ≠ 0 := fun h0 => by
        have e := h.zero h0
        have := h.le
        rw [e] at this
        simp at this; omega
      show s.runs - 1 + 1 = s.runs
      omega
    · exact h.now j e he (by omega)
  old := fun j e he hj => by
    simp only [stored] at he hj ⊢
    rw [write_get _ _ _ h.le, if_neg (by omega)] at he
    exact h.old j e he (by omega)
  place := fun j e he => by
    simp only [stored] at he
    rw [write_get _ _ _ h.le] at he
    split_ifs at he with h0
    · cases he; exact h0.symm
    · exact h.place j e he

variable [LinearOrder α]

theorem tracks_call {s s' : St F α} {i : Progress F} (h : Tracks s i) (c : Call F α) (a : Ans F α) (e : call s c = some (s', a)) :
    Tracks s' (i.next c) := by
  cases c with
  | equation f =>
    obtain rfl := (Prod.mk.inj (Option.some.inj e)).1
    exact ⟨by show s.eqs ++ [f] = _; rw [h.eqs]; rfl, by rw [h.eqn', h.eqs]; rfl, h.eqn', h.points, h.most, h.le, h.runs, h.none_, h.zero, h.now, h.old, h.place⟩
  | derivative k f =>
    obtain rfl := (Prod.mk.inj (Option.some.inj e)).1
    exact ⟨by show s.eqs.set k f = _; rw [h.eqs]; rfl, by rw [h.eqn', h.eqs]; rfl, h.eqn', h.points, h.most, h.le, h.runs, h.none_, h.zero, h.now, h.old, h.place⟩
  | setEquation k =>
    cases k with
    | none =>
      obtain rfl := (Prod.mk.inj (Option.some.inj e)).1
      exact ⟨h.eqs, rfl, fun _ => rfl, h.points, h.most, h.le, h.runs, h.none_, h.zero, h.now, h.old, h.place⟩
    | some k =>
      obtain rfl := (Prod.mk.inj (Option.some.inj e)).1
      exact ⟨h.eqs, by show (s.eqs[k]?).join = _; rw [h.eqs]; rfl, fun _ => rfl, h.points, h.most, h.le, h.runs, h.none_, h.zero, h.now, h.old, h.place⟩
  | toggle d =>
    obtain rfl := (Prod.mk.inj (Option.some.inj e)).1
    exact ⟨h.eqs, h.eqn, h.eqn', h.points, h.most, h.le, h.runs, h.none_, h.zero, h.now, h.old, h.place⟩
  | initialValue =>
    obtain ⟨f, -, hf⟩ := Option.map_eq_some_iff.1 e
    obtain rfl := (Prod.mk.inj hf).1
    exact tracks_begun h f
  | step t =>
    simp only [call] at e
    split_ifs at e with hn
    obtain ⟨f, -, hf⟩ := Option.map_eq_some_iff.1 e
    cases t with
    | none =>
      obtain rfl := (Prod.mk.inj hf).1
      exact h
    | some t =>
      obtain rfl := (Prod.mk.inj hf).1
      exact tracks_stored h hn t f
  | lastTime =>
    simp only [call] at e
    split_ifs at e with hn
    · obtain rfl := (Prod.mk.inj (Option.some.inj e)).1
      exact h
    · obtain ⟨f, -, hf⟩ := Option.map_eq_some_iff.1 e
      obtain rfl := (Prod.mk.inj hf).1
      exact h
  | lastSolution =>
    simp only [call] at e
    split_ifs at e with hn
    obtain ⟨f, -, hf⟩ := Option.map_eq_some_iff.1 e
    obtain rfl := (Prod.mk.inj hf).1
    exact h
  | timeAt k =>
    obtain ⟨f, -, hf⟩ := Option.map_eq_some_iff.1 e
    obtain rfl := (Prod.mk.inj hf).1
    exact h
  | outputDense ts =>
    obtain ⟨f, -, hf⟩ := Option.map_eq_some_iff.1 e
    obtain rfl := (Prod.mk.inj hf).1
    exact h

theorem tracks_calls : ∀ (cs : List (Call F α)) {s s' : St F α} {i : Progress F} {as : List (Ans F α)}, Tracks s i →
    calls s cs = some (s', as) → Tracks s' (cs.foldl Progress.next i)
  | [], s, s', i, as, h, e => by
    obtain rfl := (Prod.mk.inj (Option.some.inj e)).1
    exact h
  | c :: cs, s, s', i, as, h, e => by
    simp only [calls] at e
    obtain ⟨p, e1, e2⟩ := Option.bind_eq_some_iff.1 e
    obtain ⟨q, e3, e4⟩ := Option.map_eq_some_iff.1 e2
    obtain rfl := (Prod.mk.inj e4).1
    exact tracks_calls cs (tracks_call h c p.2 e1) e3

/-- **C136** Exactly which calls are undefined, after any sequence of calls; dense output apart. -/
theorem C136_exact (cs : List (Call F α)) (s : St F α) (as : List (Ans F α)) (h : calls St.new cs = some (s, as)) (c : Call F α)
    (hd : ∀ ts, c ≠ .outputDense ts) : call s c = none ↔ (progress cs).Undefined c := by
  have t := tracks_calls cs tracks_new h
  change Tracks s (progress cs) at t
  cases c with
  | equation f => exact ⟨fun e => by simp [call] at e, fun e => e.elim⟩
  | derivative k f => exact ⟨fun e => by simp [call] at e, fun e => e.elim⟩
  | setEquation k => exact ⟨fun e => by cases k <;> simp [call] at e, fun e => e.elim⟩
  | toggle d => exact ⟨fun e => by simp [call] at e, fun e => e.elim⟩
  | initialValue =>
    show s.function.map _ = none ↔ (progress cs).function = none
    rw [Option.map_eq_none_iff, t.eqn]
  | step x =>
    show (if s.n = 0 then none else s.function.map _) = none ↔ ((progress cs).function = none ∨ (progress cs).points = 0)
    rw [← t.points, ← t.eqn]
    split_ifs with hn
    · exact ⟨fun _ => .inr hn, fun _ => rfl⟩
    · rw [Option.map_eq_none_iff]
      exact ⟨.inl, fun h => h.resolve_right hn⟩
  | lastTime =>
    refine ⟨fun e => ?_, fun e => e.elim⟩
    simp only [call] at e
    split_ifs at e with hn
    rw [Option.map_eq_none_iff, List.getElem?_eq_none_iff] at e
    have := t.le; omega
  | lastSolution =>
    show (if s.n = 0 then none else _) = none ↔ (progress cs).points = 0
    rw [← t.points]
    split_ifs with hn
    · exact ⟨fun _ => hn, fun _ => rfl⟩
    · rw [Option.map_eq_none_iff, List.getElem?_eq_none_iff]
      have := t.le
      constructor <;> intro h' <;> omega
  | timeAt k =>
    show (s.arr[k]?).map _ = none ↔ (progress cs).most ≤ k
    rw [Option.map_eq_none_iff, List.getElem?_eq_none_iff, t.most]
  | outputDense ts => exact absurd rfl (hd ts)

/-! ### dense output -/

/-- Dense output was on all the time: every step has its coefficients. -/
structure DenseOn (s : St F α) : Prop where
  on : s.dense = true
  now : ∀ j, j + 1 < s.n → s.coef j = some (s.runs - 1, j)
  old : ∀ j, s.n ≤ j + 1 → j + 1 < s.arr.length → ∃ r, s.coef j = some (r, j) ∧ r + 1 < s.runs
  out : ∀ j, s.arr.length ≤ j + 1 → s.coef j = none

omit [Zero α] [LinearOrder α] in
theorem denseOn_new : DenseOn (St.new : St F α) where
  on := rfl
  now := fun j h => by simp [St.new] at h
  old := fun j _ h => by simp [St.new] at h
  out := fun _ _ => rfl

theorem denseOn_call {s s' : St F α} {i : Progress F} (t : Tracks s i) (h : DenseOn s) (c : Call F α) (hc : ∀ d, c ≠ .toggle d) (a : Ans F α)
    (e : call s c = some (s', a)) : DenseOn s' := by
  cases c with
  | equation f =>
    obtain rfl := (Prod.mk.inj (Option.some.inj e)).1
    exact ⟨h.on, h.now, h.old, h.out⟩
  | derivative k f =>
    obtain rfl := (Prod.mk.inj (Option.some.inj e)).1
    exact ⟨h.on, h.now, h.old, h.out⟩
  | setEquation k =>
    cases k <;> obtain rfl := (Prod.mk.inj (Option.some.inj e)).1 <;> exact ⟨h.on, h.now, h.old, h.out⟩
  | toggle d => exact absurd rfl (hc d)
  | initialValue =>
    obtain ⟨f, -, hf⟩ := Option.map_eq_some_iff.1 e
    obtain rfl := (Prod.mk.inj hf).1
    refine ⟨h.on, fun j hj => ?_, fun j h1 h2 => ?_, fun j h1 => ?_⟩
    · simp only [begun] at hj; omega
    · simp only [begun] at h1 h2 ⊢
      rw [write_length _ _ _ (Nat.zero_le _)] at h2
      by_cases hn : j + 1 < s.n
      · refine ⟨_, h.now j hn, ?_⟩
        have : s.runs ≠ 0 := fun h0 => by
          have e := t.zero h0
          have := t.le
          rw [e] at this
          simp at this; omega
        omega
      · obtain ⟨r, hr, hr'⟩ := h.old j (by omega) (by omega)
        exact ⟨r, hr, by omega⟩
    · simp only [begun] at h1 ⊢
      rw [write_length _ _ _ (Nat.zero_le _)] at h1
      exact h.out j (by omega)
  | step x =>
    simp only [call] at e
    split_ifs at e with hn
    obtain ⟨f, -, hf⟩ := Option.map_eq_some_iff.1 e
    cases x with
    | none =>
      obtain rfl := (Prod.mk.inj hf).1
      exact h
    | some x =>
      obtain rfl := (Prod.mk.inj hf).1
      have hl := t.le
      refine ⟨h.on, fun j hj => ?_, fun j h1 h2 => ?_, fun j h1 => ?_⟩
      · simp only [stored, h.on, if_true] at hj ⊢
        by_cases hj' : j = s.n - 1
        · subst hj'; rw [Function.update_self]
        · rw [Function.update_of_ne hj']; exact h.now j (by omega)
      · simp only [stored, h.on, if_true] at h1 h2 ⊢
        rw [write_length _ _ _ hl] at h2
        rw [Function.update_of_ne (by omega)]
        exact h.old j (by omega) (by omega)
      · simp only [stored, h.on, if_true] at h1 ⊢
        rw [write_length _ _ _ hl] at h1
        rw [Function.update_of_ne (by omega)]
        exact h.out j (by omega)
  | lastTime =>
    simp only [call] at e
    split_ifs at e with hn
    · obtain rfl := (Prod.mk.inj (Option.some.inj e)).1
      exact h
    · obtain ⟨f, -, hf⟩ := Option.map_eq_some_iff.1 e
      obtain rfl := (Prod.mk.inj hf).1
      exact h
  | lastSolution =>
    simp only [call] at e
    split_ifs at e with hn
    obtain ⟨f, -, hf⟩ := Option.map_eq_some_iff.1 e
    obtain rfl := (Prod.mk.inj hf).1
    exact h
  | timeAt k =>
    obtain ⟨f, -, hf⟩ := Option.map_eq_some_iff.1 e
    obtain rfl := (Prod.mk.inj hf).1
    exact h
  | outputDense ts =>
    obtain ⟨f, -, hf⟩ := Option.map_eq_some_iff.1 e
    obtain rfl := (Prod.mk.inj hf).1
    exact h

theorem denseOn_calls : ∀ (cs : List (Call F α)) {s s' : St F α} {i : Progress F} {as : List (Ans F α)}, Tracks s i → DenseOn s →
    (∀ d, .toggle d ∉ cs) → calls s cs = some (s', as) → DenseOn s'
  | [], s, s', i, as, _, h, _, e => by
    obtain rfl := (Prod.mk.inj (Option.some.inj e)).1
    exact h
  | c :: cs, s, s', i, as, t, h, hc, e => by
    simp only [calls] at e
    obtain ⟨p, e1, e2⟩ := Option.bind_eq_some_iff.1 e
    obtain ⟨q, e3, e4⟩ := Option.map_eq_some_iff.1 e2
    obtain rfl := (Prod.mk.inj e4).1
    exact denseOn_calls cs (tracks_call t c p.2 e1) (denseOn_call t h c (fun d hd => hc d (hd ▸ List.mem_cons_self)) p.2 e1)
      (fun d hd => hc d (List.mem_cons_of_mem _ hd)) e3

omit [Zero α] in
theorem seek_lt (arr : List (Entry F α)) (n : Nat) (T : α) : ∀ (k it : Nat), n - it ≤ k → seek arr n T it = it ∨ seek arr n T it + 1 < n
  | 0, it, h => by
    left
    rw [seek, dif_neg]
    rintro ⟨h', -⟩
    omega
  | k + 1, it, h => by
    rw [seek]
    split_ifs with h'
    · right
      rcases seek_lt arr n T k (it + 1) (by omega) with e | e
      · rw [e]; omega
      · exact e
    · exact .inl rfl

omit [Zero α] in
/-- With coefficients for all intervals up to the end of the array. -/
theorem output_defined (s : St F α) (P : Nat × Nat → Prop) (hn : ∀ j, j + 1 < s.n ∨ j = 0 → ∃ c, s.coef j = some c ∧ P c)
    (hl : 2 ≤ s.arr.length) (hle : s.n ≤ s.arr.length) : ∀ (ts : List α) (it : Nat), (it = 0 ∨ it + 1 < s.n) →
    output s ts it = some none ∨ ∃ l, output s ts it = some (some l) ∧ l.length = ts.length ∧ ∀ c ∈ l, P c
  | [], it, _ => .inr ⟨[], rfl, rfl, fun c hc => by simp at hc⟩
  | T :: ts, it, hit => by
    have hs : seek s.arr s.n T it = 0 ∨ seek s.arr s.n T it + 1 < s.n := by
      rcases seek_lt s.arr s.n T _ it (Nat.le_refl _) with e | e
      · rw [e]; exact hit
      · exact .inr e
    simp only [output]
    generalize seek s.arr s.n T it = k at hs
    have hk : k + 1 < s.arr.length := by omega
    rw [List.getElem?_eq_getElem hk]
    dsimp only
    split_ifs with hT
    · exact .inl rfl
    · obtain ⟨c, hc, hP⟩ := hn k (by omega)
      rw [hc]
      dsimp only
      rcases output_defined s P hn hl hle ts k hs with e | ⟨l, e, e', hl'⟩
      · rw [e]; exact .inl rfl
      · rw [e]
        refine .inr ⟨c :: l, rfl, by rw [List.length_cons, List.length_cons, e'], fun c' hc' => ?_⟩
        rcases List.mem_cons.1 hc' with rfl | hc'
        · exact hP
        · exact hl' c' hc'

omit [Zero α] in
theorem output_short (s : St F α) (hle : s.n ≤ s.arr.length) (hl : s.arr.length < 2) (T : α) (ts : List α) : output s (T :: ts) 0 = none := by
  have hs : seek s.arr s.n T 0 = 0 := by
    rcases seek_lt s.arr s.n T _ 0 (Nat.le_refl _) with e | e
    · exact e
    · omega
  simp only [output, hs]
  rw [List.getElem?_eq_none (by omega)]

/-- **C136** With dense output on all the time: dense output is undefined exactly if no integration had two points. -/
theorem C136_exact_dense (cs : List (Call F α)) (s : St F α) (as : List (Ans F α)) (h : calls St.new cs = some (s, as)) (hc : ∀ d, .toggle d ∉ cs)
    (ts : List α) : call s (.outputDense ts) = none ↔ (progress cs).Undefined (.outputDense ts : Call F α) := by
  have t := tracks_calls cs tracks_new h
  change Tracks s (progress cs) at t
  have d := denseOn_calls cs tracks_new denseOn_new hc h
  show (output s ts 0).map _ = none ↔ (ts ≠ [] ∧ (progress cs).most < 2)
  rw [Option.map_eq_none_iff, ← t.most]
  constructor
  · intro e
    refine ⟨fun h0 => by rw [h0] at e; simp [output] at e, Nat.lt_of_not_le fun h2 => ?_⟩
    have hco : ∀ j, j + 1 < s.n ∨ j = 0 → ∃ c, s.coef j = some c ∧ True := fun j hj => by
      by_cases hj' : j + 1 < s.n
      · exact ⟨_, d.now j hj', trivial⟩
      · obtain ⟨r, hr, -⟩ := d.old j (by omega) (by omega)
        exact ⟨_, hr, trivial⟩
    rcases output_defined s (fun _ => True) hco h2 t.le ts 0 (.inl rfl) with e' | ⟨l, e', -⟩
    · rw [e'] at e; simp at e
    · rw [e'] at e; simp at e
  · rintro ⟨h0, h2⟩
    cases ts with
    | nil => exact absurd rfl h0
    | cons T ts => exact output_short s t.le h2 T ts

/-- Every call that can be answered is, and from the present integration; with dense output on all the time. -/
theorem allows_right {s : St F α} {i : Progress F} (t : Tracks s i) (d : DenseOn s) (c : Call F α) (hc : i.Allows c) :
    ∃ s' a, call s c = some (s', a) ∧ i.Right c a := by
  have hle := t.le
  cases c with
  | equation f => exact ⟨_, _, rfl, rfl⟩
  | derivative k f => exact ⟨_, _, rfl, rfl⟩
  | setEquation k => cases k <;> exact ⟨_, _, rfl, rfl⟩
  | toggle d => exact ⟨_, _, rfl, rfl⟩
  | initialValue =>
    obtain ⟨f, hf⟩ := Option.isSome_iff_exists.1 (show i.function.isSome from hc)
    refine ⟨begun s f, .done, ?_, rfl⟩
    simp only [call]; rw [t.eqn, hf]; rfl
  | step x =>
    obtain ⟨hf, hp⟩ := (show i.function.isSome ∧ 0 < i.points from hc)
    obtain ⟨f, hf⟩ := Option.isSome_iff_exists.1 hf
    rw [← t.points] at hp
    simp only [call]
    rw [if_neg (by omega), t.eqn, hf]
    cases x with
    | none => exact ⟨_, _, rfl, rfl⟩
    | some x => exact ⟨_, _, rfl, rfl⟩
  | lastTime =>
    have hp : 0 < i.points := hc
    rw [← t.points] at hp
    have hk : s.n - 1 < s.arr.length := by omega
    have e := List.getElem?_eq_getElem hk
    refine ⟨s, .entry s.arr[s.n - 1], ?_, _, rfl, ?_, ?_⟩
    · simp only [call]; rw [if_neg (by omega), e]; rfl
    · rw [← t.runs]; exact t.now _ _ e (by omega)
    · rw [t.place _ _ e, ← t.points]; omega
  | lastSolution =>
    have hp : 0 < i.points := hc
    rw [← t.points] at hp
    have hk : s.n - 1 < s.arr.length := by omega
    have e := List.getElem?_eq_getElem hk
    refine ⟨s, .entry s.arr[s.n - 1], ?_, _, rfl, ?_, ?_⟩
    · simp only [call]; rw [if_neg (by omega), e]; rfl
    · rw [← t.runs]; exact t.now _ _ e (by omega)
    · rw [t.place _ _ e, ← t.points]; omega
  | timeAt k =>
    have hp : k < i.points := hc
    rw [← t.points] at hp
    have hk : k < s.arr.length := by omega
    have e := List.getElem?_eq_getElem hk
    refine ⟨s, .entry s.arr[k], ?_, _, rfl, ?_, t.place _ _ e⟩
    · simp only [call]; rw [e]; rfl
    · rw [← t.runs]; exact t.now _ _ e hp
  | outputDense ts =>
    rcases (show ts = [] ∨ 2 ≤ i.points from hc) with rfl | h2
    · exact ⟨s, .poly [], rfl, .inr ⟨[], rfl, rfl, fun c hc => by simp at hc⟩⟩
    · rw [← t.points] at h2
      have hr : s.runs ≠ 0 := fun h0 => by
        have e := t.zero h0
        rw [e] at hle
        simp at hle; omega
      rcases output_defined s (fun c => c.1 + 1 = s.runs ∧ c.2 + 1 < s.n)
        (fun j hj => ⟨_, d.now j (by omega), by show s.runs - 1 + 1 = s.runs; omega, by show j + 1 < s.n; omega⟩) (by omega) hle ts 0 (.inl rfl) with e | ⟨l, e, e', hl⟩
      · exact ⟨s, .thrown, by simp only [call]; rw [e]; rfl, .inl rfl⟩
      · refine ⟨s, .poly l, by simp only [call]; rw [e]; rfl, .inr ⟨l, rfl, e', ?_⟩⟩
        rw [← t.runs, ← t.points]
        exact hl

theorem orderly_right : ∀ (cs : List (Call F α)) {s : St F α} {i : Progress F}, Tracks s i → DenseOn s → (∀ d, .toggle d ∉ cs) → InOrder i cs →
    ∃ s' as, calls s cs = some (s', as) ∧ AllRight i cs as
  | [], s, i, _, _, _, _ => ⟨s, [], rfl, rfl⟩
  | c :: cs, s, i, t, d, hc, h => by
    obtain ⟨s1, a, e, ha⟩ := allows_right t d c h.1
    obtain ⟨s2, as, e', has⟩ := orderly_right cs (tracks_call t c a e) (denseOn_call t d c (fun b hb => hc b (hb ▸ List.mem_cons_self)) a e)
      (fun b hb => hc b (List.mem_cons_of_mem _ hb)) h.2
    exact ⟨s2, a :: as, by simp only [calls]; rw [e, Option.bind_some, e']; rfl, a, as, rfl, ha, has⟩

/-- **C136** If every call can be answered when it is made (and dense output stays on), then nothing is undefined and all answers belong to
the present integration.  Missing: the others are not reported, see below. -/
theorem C136_in_order_partial (cs : List (Call F α)) (hc : ∀ d, .toggle d ∉ cs) (h : InOrder Progress.start cs) :
    ∃ s as, calls St.new cs = some (s, as) ∧ AllRight Progress.start cs as :=
  orderly_right cs tracks_new denseOn_new hc h

/-- C136, refuted: no call that cannot be answered is reported by an exception, apart from dense output; the last time is 0 when there is none, and
everything else is undefined or, if an earlier integration had more points, a point of it. -/
theorem C136_refuted (cs : List (Call F α)) (s : St F α) (as : List (Ans F α)) (h : calls St.new cs = some (s, as)) (c : Call F α)
    (hc : ¬ (progress cs).Allows c) (hd : ∀ ts, c ≠ .outputDense ts) :
    call s c = none ∨ call s c = some (s, .zero) ∨ ∃ e, call s c = some (s, .entry e) ∧ e.of + 1 < (progress cs).integrations := by
  by_cases hu : (progress cs).Undefined c
  · exact .inl ((C136_exact cs s as h c hd).2 hu)
  have t := tracks_calls cs tracks_new h
  change Tracks s (progress cs) at t
  cases c with
  | equation f => exact absurd trivial hc
  | derivative k f => exact absurd trivial hc
  | setEquation k => exact absurd trivial hc
  | toggle d => exact absurd trivial hc
  | initialValue =>
    have h1 : ¬ (progress cs).function = none := hu
    have h2 : ¬ ((progress cs).function.isSome = true) := hc
    rw [Option.isSome_iff_ne_none] at h2
    exact absurd h1 h2
  | step x =>
    have h1 : ¬ ((progress cs).function = none ∨ (progress cs).points = 0) := hu
    have h2 : ¬ ((progress cs).function.isSome = true ∧ 0 < (progress cs).points) := hc
    rw [Option.isSome_iff_ne_none] at h2
    exact absurd ⟨fun h => h1 (.inl h), Nat.pos_of_ne_zero fun h => h1 (.inr h)⟩ h2
  | lastTime =>
    have h2 : ¬ 0 < (progress cs).points := hc
    rw [← t.points] at h2
    right; left
    simp only [call]
    rw [if_pos (by omega)]
  | lastSolution =>
    have h1 : ¬ (progress cs).points = 0 := hu
    have h2 : ¬ 0 < (progress cs).points := hc
    omega
  | timeAt k =>
    have h1 : ¬ (progress cs).most ≤ k := hu
    have h2 : ¬ k < (progress cs).points := hc
    rw [← t.most] at h1
    rw [← t.points] at h2
    right; right
    have e := List.getElem?_eq_getElem (show k < s.arr.length by omega)
    refine ⟨s.arr[k], by simp only [call]; rw [e]; rfl, ?_⟩
    rw [← t.runs]
    exact t.old _ _ e (by omega)
  | outputDense ts => exact absurd rfl (hd ts)

/-- C136, refuted: nor is dense output that cannot be answered, unless the first time of the request is beyond the second point of an earlier
integration: it is undefined, or made of the coefficients of that earlier integration. -/
theorem C136_refuted_dense (cs : List (Call F α)) (s : St F α) (as : List (Ans F α)) (h : calls St.new cs = some (s, as)) (hc : ∀ d, .toggle d ∉ cs)
    (T : α) (ts : List α) (hp : ¬ (progress cs).Allows (.outputDense (T :: ts) : Call F α)) :
    call s (.outputDense (T :: ts)) = none ∨ ∃ e, s.arr[1]? = some e ∧ e.of + 1 < (progress cs).integrations ∧
      (call s (.outputDense (T :: ts)) = some (s, .thrown) ∧ (∃ T' ∈ T :: ts, e.t < T') ∨
       (∀ T' ∈ T :: ts, T' ≤ e.t) ∧ ∃ r, r + 1 < (progress cs).integrations ∧
          call s (.outputDense (T :: ts)) = some (s, .poly (List.replicate (ts.length + 1) (r, 0)))) := by
  have t := tracks_calls cs tracks_new h
  change Tracks s (progress cs) at t
  have d := denseOn_calls cs tracks_new denseOn_new hc h
  have h2 : ¬ (T :: ts = [] ∨ 2 ≤ (progress cs).points) := hp
  rw [← t.points] at h2
  have hn : s.n < 2 := Nat.lt_of_not_le fun h => h2 (.inr h)
  by_cases hl : s.arr.length < 2
  · left
    show (output s (T :: ts) 0).map _ = none
    rw [output_short s t.le hl]; rfl
  right
  have e := List.getElem?_eq_getElem (show 1 < s.arr.length by omega)
  have he := t.old _ _ e (by omega)
  refine ⟨s.arr[1], e, by rw [← t.runs]; exact he, ?_⟩
  obtain ⟨r, hr, hr'⟩ := d.old 0 (by omega) (by omega)
  generalize s.arr[1] = x at e he ⊢
  have hs : ∀ T, seek s.arr s.n T 0 = 0 := fun T => by
    rw [seek, dif_neg]
    rintro ⟨h', -⟩
    omega
  have key : ∀ l : List α, ((∃ T' ∈ l, x.t < T') ∧ output s l 0 = some none) ∨
      ((∀ T' ∈ l, T' ≤ x.t) ∧ output s l 0 = some (some (List.replicate l.length (r, 0)))) := by
    intro l
    induction l with
    | nil => exact .inr ⟨fun _ h => by simp at h, rfl⟩
    | cons A l ih =>
      simp only [output, hs, Nat.zero_add, e, hr]
      by_cases hA : x.t < A
      · rw [if_pos hA]
        exact .inl ⟨⟨A, List.mem_cons_self, hA⟩, rfl⟩
      · rw [if_neg hA]
        rcases ih with ⟨⟨T', hT, hT'⟩, ih⟩ | ⟨hT, ih⟩
        · rw [ih]
          exact .inl ⟨⟨T', List.mem_cons_of_mem _ hT, hT'⟩, rfl⟩
        · rw [ih]
          refine .inr ⟨fun T' h' => ?_, rfl⟩
          rcases List.mem_cons.1 h' with rfl | h'
          · exact le_of_not_gt hA
          · exact hT T' h'
  rcases key (T :: ts) with ⟨hT, hk⟩ | ⟨hT, hk⟩
  · left
    refine ⟨?_, hT⟩
    show (output s (T :: ts) 0).map _ = _
    rw [hk]; rfl
  · right
    refine ⟨hT, r, by rw [← t.runs]; exact hr', ?_⟩
    show (output s (T :: ts) 0).map _ = _
    rw [hk]; rfl

/-- C136, refuted: the first calls on a new integrator.  No equation is asked for by the constructor, `InitialValue` (which one of the constructors
calls) reads the one that was not set; without initial value a step reads through the null pointer. -/
theorem C136_refuted_first (f : F) (x : Option α) :
    calls (St.new : St F α) [.initialValue] = none ∧
    calls (St.new : St F α) [.equation (some f), .setEquation (some 0), .step x] = none ∧
    (calls (St.new : St F α) [.lastTime]).map (·.2) = some [.zero] ∧
    calls (St.new : St F α) [.timeAt 0] = none ∧ calls (St.new : St F α) [.lastSolution] = none := ⟨rfl, rfl, rfl, rfl, rfl⟩

/-- C136, refuted: after two steps and a new initial value the time of the second step of the earlier integration is still found, and so is
its dense output, at all times up to its first step. -/
theorem C136_refuted_earlier (f : F) (t1 t2 T : α) (hT : T ≤ t1) :
    ∃ s as, calls (St.new : St F α) [.equation (some f), .setEquation (some 0), .initialValue, .step (some t1), .step (some t2), .initialValue] = some (s, as) ∧
      call s (.timeAt 2) = some (s, .entry ⟨0, 2, t2, f⟩) ∧ call s (.outputDense [T]) = some (s, .poly [(0, 0)]) := by
  have hs : seek ([⟨1, 0, 0, f⟩, ⟨0, 1, t1, f⟩, ⟨0, 2, t2, f⟩] : List (Entry F α)) 1 T 0 = 0 := by
    rw [seek, dif_neg]
    rintro ⟨h', -⟩
    omega
  have ho : output (⟨[some f], .obj 0, true, [⟨1, 0, 0, f⟩, ⟨0, 1, t1, f⟩, ⟨0, 2, t2, f⟩], 1,
      Function.update (Function.update (fun _ => none) 0 (some (0, 0))) 1 (some (0, 1)), 2⟩ : St F α) [T] 0 = some (some [(0, 0)]) := by
    simp only [output, hs, Nat.zero_add]
    rw [show ([⟨1, 0, 0, f⟩, ⟨0, 1, t1, f⟩, ⟨0, 2, t2, f⟩] : List (Entry F α))[1]? = some ⟨0, 1, t1, f⟩ from rfl]
    dsimp only
    rw [if_neg (not_lt.2 hT), Function.update_of_ne (by decide), Function.update_self]
    rfl
  refine ⟨_, _, rfl, rfl, ?_⟩
  show Option.map _ (output (⟨[some f], .obj 0, true, [⟨1, 0, 0, f⟩, ⟨0, 1, t1, f⟩, ⟨0, 2, t2, f⟩], 1,
      Function.update (Function.update (fun _ => none) 0 (some (0, 0))) 1 (some (0, 1)), 2⟩ : St F α) [T] 0) = _
  rw [ho]
  rfl

/-- An orderly sequence. -/
example : InOrder (Progress.start : Progress String) ([.equation (some "f"), .setEquation (some 0), .initialValue, .step (some 1), .lastTime, .step none,
    .outputDense [0, 1], .timeAt 1] : List (Call String Nat)) := by
  simp [InOrder, Progress.Allows, Progress.next, Progress.start, Progress.function]

/-! ### which interval -/

omit [Zero α] in
theorem seek_before (arr : List (Entry F α)) (n : Nat) (T : α) : ∀ (k it : Nat), n - it ≤ k →
    it ≤ seek arr n T it ∧ (seek arr n T it = it ∨ ∃ e, arr[seek arr n T it]? = some e ∧ e.t < T)
  | 0, it, h => by
    rw [seek, dif_neg]
    · exact ⟨Nat.le_refl _, .inl rfl⟩
    · rintro ⟨h', -⟩
      omega
  | k + 1, it, h => by
    rw [seek]
    split_ifs with h'
    · obtain ⟨g1, g2⟩ := seek_before arr n T k (it + 1) (by omega)
      refine ⟨by omega, .inr ?_⟩
      rcases g2 with g2 | g2
      · rw [g2]
        have h2 := h'.2
        cases he : arr[it + 1]? with
        | none => rw [he] at h2; simp at h2
        | some e => rw [he] at h2; exact ⟨e, rfl, by simpa using h2⟩
      · exact g2
    · exact ⟨Nat.le_refl _, .inl rfl⟩

/-- The intervals for a list of times: each one ends at or after the time, and begins before it unless it is the one of the time before (the first
one at the beginning). -/
def Intervals (s : St F α) : List α → List (Nat × Nat) → Nat → Prop
  | [], [], _ => True
  | T :: ts, c :: cs, j => (∃ x, call s (.timeAt (c.2 + 1)) = some (s, .entry x) ∧ T ≤ x.t) ∧ j ≤ c.2 ∧
      (c.2 = j ∨ ∃ x, call s (.timeAt c.2) = some (s, .entry x) ∧ x.t < T) ∧ Intervals s ts cs c.2
  | _, _, _ => False

theorem output_intervals {s : St F α} (hco : ∀ j c, s.coef j = some c → c.2 = j) : ∀ (ts : List α) (it : Nat) (l : List (Nat × Nat)),
    output s ts it = some (some l) → Intervals s ts l it
  | [], it, l, h => by
    simp only [output, Option.some.injEq] at h
    subst h
    trivial
  | T :: ts, it, l, h => by
    obtain ⟨b1, b2⟩ := seek_before s.arr s.n T _ it (Nat.le_refl _)
    simp only [output] at h
    generalize seek s.arr s.n T it = k at *
    cases he : s.arr[k + 1]? with
    | none => rw [he] at h; simp at h
    | some e =>
      rw [he] at h
      dsimp only at h
      by_cases hT : e.t < T
      · rw [if_pos hT] at h; simp at h
      rw [if_neg hT] at h
      cases hc : s.coef k with
      | none => rw [hc] at h; simp at h
      | some c =>
        rw [hc] at h
        dsimp only at h
        obtain ⟨r, hr, h'⟩ := Option.map_eq_some_iff.1 h
        obtain ⟨l', rfl, rfl⟩ := Option.map_eq_some_iff.1 h'
        have hck := hco k c hc
        subst hck
        refine ⟨⟨e, by simp only [call]; rw [he]; rfl, not_lt.1 hT⟩, b1, ?_, output_intervals hco ts _ _ hr⟩
        rcases b2 with b2 | ⟨x, hx, hxt⟩
        · exact .inl b2
        · exact .inr ⟨x, by simp only [call]; rw [hx]; rfl, hxt⟩

/-- **C136** With dense output on all the time: every time is answered with the coefficients of an interval that ends at or after it and begins before
it, unless the interval of the time before ends at or after it already. -/
theorem C136_interval (cs : List (Call F α)) (s : St F α) (as : List (Ans F α)) (h : calls St.new cs = some (s, as)) (hc : ∀ d, .toggle d ∉ cs)
    (ts : List α) (l : List (Nat × Nat)) (e : call s (.outputDense ts) = some (s, .poly l)) : Intervals s ts l 0 := by
  have d := denseOn_calls cs tracks_new denseOn_new hc h
  have hco : ∀ j c, s.coef j = some c → c.2 = j := by
    intro j c hj
    by_cases h1 : j + 1 < s.n
    · rw [d.now j h1] at hj
      rw [← Option.some.inj hj]
    · by_cases h2 : j + 1 < s.arr.length
      · obtain ⟨r, hr, -⟩ := d.old j (by omega) h2
        rw [hr] at hj
        rw [← Option.some.inj hj]
      · rw [d.out j (by omega)] at hj
        cases hj
  simp only [call] at e
  obtain ⟨r, hr, h'⟩ := Option.map_eq_some_iff.1 e
  cases r with
  | none => simp at h'
  | some l' =>
    simp only [Prod.mk.injEq, Ans.poly.injEq, true_and] at h'
    subst h'
    exact output_intervals hco ts 0 _ hr

/-! ### without dense output -/

/-- No coefficients were ever stored. -/
def NoCoef (s : St F α) : Prop := ∀ j, s.coef j = none

theorem call_fields {s s' : St F α} {c : Call F α} {a : Ans F α} (e : call s c = some (s', a)) :
    ((∀ d, c ≠ .toggle d) → s'.dense = s.dense) ∧ (NoCoef s → ((∀ x, c ≠ .step x) ∨ s.dense = false) → NoCoef s') := by
  cases c with
  | equation f => obtain rfl := (Prod.mk.inj (Option.some.inj e)).1; exact ⟨fun _ => rfl, fun h _ => h⟩
  | derivative k f => obtain rfl := (Prod.mk.inj (Option.some.inj e)).1; exact ⟨fun _ => rfl, fun h _ => h⟩
  | setEquation k =>
    cases k <;>
    · obtain rfl := (Prod.mk.inj (Option.some.inj e)).1; exact ⟨fun _ => rfl, fun h _ => h⟩
  | toggle d => obtain rfl := (Prod.mk.inj (Option.some.inj e)).1; exact ⟨fun h => absurd rfl (h d), fun h _ => h⟩
  | initialValue =>
    obtain ⟨f, -, h⟩ := Option.map_eq_some_iff.1 (show s.function.map _ = some (s', a) from e)
    obtain rfl := (Prod.mk.inj h).1
    exact ⟨fun _ => rfl, fun h _ => h⟩
  | step x =>
    simp only [call] at e
    split_ifs at e
    obtain ⟨f, -, h⟩ := Option.map_eq_some_iff.1 e
    cases x with
    | none => obtain rfl := (Prod.mk.inj h).1; exact ⟨fun _ => rfl, fun h _ => h⟩
    | some t =>
      obtain rfl := (Prod.mk.inj h).1
      refine ⟨fun _ => rfl, fun h hd => ?_⟩
      rcases hd with hd | hd
      · exact absurd rfl (hd _)
      · intro j
        simp only [stored, hd]
        exact h j
  | lastTime =>
    simp only [call] at e
    split_ifs at e
    · obtain rfl := (Prod.mk.inj (Option.some.inj e)).1; exact ⟨fun _ => rfl, fun h _ => h⟩
    · obtain ⟨f, -, h⟩ := Option.map_eq_some_iff.1 e
      obtain rfl := (Prod.mk.inj h).1; exact ⟨fun _ => rfl, fun h _ => h⟩
  | lastSolution =>
    simp only [call] at e
    split_ifs at e
    obtain ⟨f, -, h⟩ := Option.map_eq_some_iff.1 e
    obtain rfl := (Prod.mk.inj h).1; exact ⟨fun _ => rfl, fun h _ => h⟩
  | timeAt i =>
    obtain ⟨f, -, h⟩ := Option.map_eq_some_iff.1 (show (s.arr[i]?).map _ = some (s', a) from e)
    obtain rfl := (Prod.mk.inj h).1; exact ⟨fun _ => rfl, fun h _ => h⟩
  | outputDense ts =>
    obtain ⟨f, -, h⟩ := Option.map_eq_some_iff.1 (show (output s ts 0).map _ = some (s', a) from e)
    obtain rfl := (Prod.mk.inj h).1; exact ⟨fun _ => rfl, fun h _ => h⟩

theorem noCoef_before : ∀ (cs : List (Call F α)) {s s' : St F α} {as : List (Ans F α)}, NoCoef s → (∀ x, .step x ∉ cs) →
    calls s cs = some (s', as) → NoCoef s'
  | [], s, s', as, h, _, e => by
    obtain rfl := (Prod.mk.inj (Option.some.inj e)).1
    exact h
  | c :: cs, s, s', as, h, hc, e => by
    simp only [calls] at e
    obtain ⟨p, e1, e2⟩ := Option.bind_eq_some_iff.1 e
    obtain ⟨q, e3, e4⟩ := Option.map_eq_some_iff.1 e2
    obtain rfl := (Prod.mk.inj e4).1
    exact noCoef_before cs ((call_fields e1).2 h (.inl fun x hx => hc x (hx ▸ List.mem_cons_self)))
      (fun x hx => hc x (List.mem_cons_of_mem _ hx)) e3

theorem noCoef_after : ∀ (cs : List (Call F α)) {s s' : St F α} {as : List (Ans F α)}, NoCoef s → s.dense = false → (∀ d, .toggle d ∉ cs) →
    calls s cs = some (s', as) → NoCoef s'
  | [], s, s', as, h, _, _, e => by
    obtain rfl := (Prod.mk.inj (Option.some.inj e)).1
    exact h
  | c :: cs, s, s', as, h, hd, hc, e => by
    simp only [calls] at e
    obtain ⟨p, e1, e2⟩ := Option.bind_eq_some_iff.1 e
    obtain ⟨q, e3, e4⟩ := Option.map_eq_some_iff.1 e2
    obtain rfl := (Prod.mk.inj e4).1
    exact noCoef_after cs ((call_fields e1).2 h (.inr hd))
      (((call_fields e1).1 fun d hx => hc d (hx ▸ List.mem_cons_self)).trans hd) (fun x hx => hc x (List.mem_cons_of_mem _ hx)) e3

theorem calls_append : ∀ (a b : List (Call F α)) {s s' : St F α} {as : List (Ans F α)}, calls s (a ++ b) = some (s', as) →
    ∃ s1 as1 as2, calls s a = some (s1, as1) ∧ calls s1 b = some (s', as2) ∧ as = as1 ++ as2
  | [], b, s, s', as, e => ⟨s, [], as, rfl, e, rfl⟩
  | c :: a, b, s, s', as, e => by
    simp only [List.cons_append, calls] at e
    obtain ⟨p, e1, e2⟩ := Option.bind_eq_some_iff.1 e
    obtain ⟨q, e3, e4⟩ := Option.map_eq_some_iff.1 e2
    obtain ⟨s1, as1, as2, g1, g2, g3⟩ := calls_append a b e3
    obtain ⟨rfl, rfl⟩ := Prod.mk.inj e4
    exact ⟨s1, p.2 :: as1, as2, by simp only [calls]; rw [e1, Option.bind_some, g1]; rfl, g2, by rw [g3]; rfl⟩

/-- C136, refuted: if dense output is turned off before the first step, and stays off, then no time has an answer; that is reported only if the time is
after the interval that was found, and undefined otherwise. -/
theorem C136_refuted_off (before after : List (Call F α)) (hb : ∀ x, .step x ∉ before) (ha : ∀ d, .toggle d ∉ after) (s : St F α) (as : List (Ans F α))
    (h : calls St.new (before ++ .toggle false :: after) = some (s, as)) (T : α) (ts : List α) :
    call s (.outputDense (T :: ts)) = none ∨
      (call s (.outputDense (T :: ts)) = some (s, .thrown) ∧ ∃ i x, call s (.timeAt (i + 1)) = some (s, .entry x) ∧ x.t < T) := by
  obtain ⟨s1, as1, as2, g1, g2, -⟩ := calls_append before _ h
  have n1 : NoCoef s1 := noCoef_before before (s := St.new) (fun _ => rfl) hb g1
  simp only [calls, call, Option.bind_some] at g2
  obtain ⟨q, e3, e4⟩ := Option.map_eq_some_iff.1 g2
  obtain rfl := (Prod.mk.inj e4).1
  have n2 : NoCoef q.1 := noCoef_after after (s := { s1 with dense := false }) n1 rfl ha e3
  generalize q.1 = s at *
  simp only [call, output]
  generalize seek s.arr s.n T 0 = k
  cases he : s.arr[k + 1]? with
  | none => exact .inl rfl
  | some e =>
    dsimp only
    split_ifs with hT
    · exact .inr ⟨rfl, k, e, by rw [he]; rfl, hT⟩
    · rw [n2 k]
      exact .inl rfl

/-- Dense output is asked for after a step that stored no coefficients. -/
example (f : F) (t T : α) (hT : T ≤ t) : ∃ s as, calls (St.new : St F α)
      (([.equation (some f), .setEquation (some 0)] : List (Call F α)) ++ .toggle false :: [.initialValue, .step (some t)]) = some (s, as) ∧
    call s (.outputDense [T]) = none := by
  refine ⟨_, _, rfl, ?_⟩
  have hT' : ¬ t < T := not_lt.2 hT
  simp [call, output, seek, write, stored, begun, St.new, hT']

end Softlib
