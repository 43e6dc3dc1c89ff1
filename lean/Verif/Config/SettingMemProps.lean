/-
C102: the list of values of a setting read from a file is released exactly once.
-/
import Verif.Config.SettingMemModel
import Verif.Config.SFileSettingProps
import Verif.Config.SettingProps

namespace Softlib
open Softlib.Config

/-! ### Overwriting never loses a list -/

theorem pushFrom_ok {α : Type} (get : Nat → Got α) (k : Nat) :
    ∀ (start : Nat) (acc : List α), (∀ i, start ≤ i → i < start + k → ∃ a, get i = .val a) →
      ∃ l, pushFrom get start k acc = .val l := by
  induction k with
  | zero => intro start acc _; exact ⟨acc, rfl⟩
  | succ k ih =>
    intro start acc h
    obtain ⟨a, ha⟩ := h start (Nat.le_refl _) (by omega)
    rw [pushFrom, ha]
    exact ih (start + 1) (acc ++ [a]) (fun i h1 h2 => h i (by omega) (by omega))

theorem fillB_not_late {R α : Type} (dflt : α) (n : Got Nat) (get : Nat → Got α) (mk : List α → SData R)
    (h : ∀ k, n = .val k → ∀ i, i < k → ∃ a, get i = .val a) : fillB dflt n get mk ≠ .late := by
  unfold fillB
  cases n with
  | val k =>
    obtain ⟨l, hl⟩ := pushFrom_ok get k 0 (List.replicate k dflt) (fun i _ hi => h k rfl i (by omega))
    simp [hl]
  | invalid => simp
  | range => simp
  | softlib => simp

theorem askB_not_late {R : Type} (b : Got Bool) (yes no : Built R)
    (hy : b = .val true → yes ≠ .late) (hn : b = .val false → no ≠ .late) : askB b yes no ≠ .late := by
  unfold askB
  cases b with
  | val b => cases b <;> simp_all
  | invalid => simp
  | range => simp
  | softlib => simp

theorem idx_lt {α : Type} (l : List α) (i : Nat) (h : i < l.length) : ∃ a, idx l i = .val a := by
  refine ⟨l[i], ?_⟩
  unfold idx
  rw [List.getElem?_eq_getElem h]

theorem getInteger_lt {R : Type} (o : RealOps R) (d : SData R) (h : d.isInteger = true) (k : Nat)
    (hk : d.num = .val k) (i : Nat) (hi : i < k) : ∃ a, d.getInteger o i = .val a := by
  cases d <;> simp only [SData.isInteger, SData.num, Got.val.injEq, Bool.false_eq_true] at h hk
  all_goals
    subst hk
    obtain ⟨a, ha⟩ := idx_lt _ i hi
    simp only [SData.getInteger, ha, Got.map]
    exact ⟨_, rfl⟩

theorem getScalar_lt {R : Type} (o : RealOps R) (d : SData R) (h : d.isInteger = true) (k : Nat)
    (hk : d.num = .val k) (i : Nat) (hi : i < k) : ∃ a, d.getScalar o i = .val a := by
  cases d <;> simp only [SData.isInteger, SData.num, Got.val.injEq, Bool.false_eq_true] at h hk
  all_goals
    subst hk
    obtain ⟨a, ha⟩ := idx_lt _ i hi
    simp only [SData.getScalar, ha, Got.map]
    exact ⟨_, rfl⟩

theorem Got.map_lt {α β : Type} (f : α → β) {x : Got α} (h : ∃ a, x = .val a) : ∃ b, x.map f = .val b := by
  obtain ⟨a, rfl⟩ := h
  exact ⟨f a, rfl⟩

theorem build_file_not_late {R : Type} (o : RealOps R) (d : SData R) :
    buildValues o (d.source o) ≠ .late := by
  have hi32 : d.isInteger32 o = .val true → d.isInteger = true := by
    unfold SData.isInteger32
    split
    · intro _; assumption
    · intro h; simp at h
  have hi64 : d.isInteger64 = true → d.isInteger = true := by cases d <;> simp [SData.isInteger64, SData.isInteger]
  have hu64 : d.isUnsigned64 o 0 = .val true → d.isInteger = true := by
    cases d <;> simp [SData.isUnsigned64, SData.isInteger]
  have hu32 : d.isUnsigned32 o 0 = .val true → d.isInteger = true := by
    unfold SData.isUnsigned32
    intro h
    obtain ⟨u, h1, h2⟩ := Got.bind_val h
    cases u with
    | false => simp at h2
    | true => exact hu64 h1
  unfold buildValues SData.source
  dsimp only
  refine askB_not_late _ _ _ (fun h => fillB_not_late _ _ _ _ ?_) (fun hb => ?_)
  · intro k hk i hi
    cases d <;> simp [SData.isBool] at h
    simp only [SData.num, Got.val.injEq] at hk
    subst hk
    exact idx_lt _ i hi
  refine askB_not_late _ _ _ (fun h => fillB_not_late _ _ _ _ fun k hk i hi =>
    Got.map_lt _ (getInteger_lt o d (hi32 h) k hk i hi)) (fun _ => ?_)
  refine askB_not_late _ _ _ (fun h => fillB_not_late _ _ _ _ fun k hk i hi =>
    getInteger_lt o d (hi64 (Got.val.inj h)) k hk i hi) (fun _ => ?_)
  refine askB_not_late _ _ _ (fun h => fillB_not_late _ _ _ _ fun k hk i hi =>
    Got.map_lt _ (getInteger_lt o d (hu32 h) k hk i hi)) (fun _ => ?_)
  refine askB_not_late _ _ _ (fun h => fillB_not_late _ _ _ _ fun k hk i hi =>
    Got.map_lt _ (getInteger_lt o d (hu64 h) k hk i hi)) (fun _ => ?_)
  refine askB_not_late _ _ _ (fun h => fillB_not_late _ _ _ _ fun k hk i hi =>
    getScalar_lt o d (Got.val.inj h) k hk i hi) (fun hn => fillB_not_late _ _ _ _ fun k hk i hi => ?_)
  cases d <;> simp [SData.isBool, SData.isInteger] at hb hn
  · simp [SData.num] at hk
  · simp only [SData.num, Got.val.injEq] at hk
    subst hk
    exact idx_lt _ 0 (by omega)

theorem single_true {f : List Str → Nat → Got Bool} {vs : List Str} (h : single f vs = .val true) :
    ∃ v, vs = [v] ∧ f [v] 0 = .val true := by
  unfold single at h
  split at h
  · simp at h
  · rename_i hl
    have hl : vs.length = 1 := by omega
    obtain ⟨v, rfl⟩ := List.length_eq_one_iff.mp hl
    exact ⟨v, rfl, h⟩

theorem isWhole_true {α : Type} {f : Str → Got (α × Nat)} {v : Str} (h : isWhole f [v] 0 = .val true) :
    ∃ a e, f v = .val (a, e) := by
  unfold isWhole atIdx at h
  simp only [List.getElem?_cons_zero] at h
  cases hv : f v with
  | val p => exact ⟨p.1, p.2, rfl⟩
  | invalid => rw [hv] at h; simp at h
  | range => rw [hv] at h; simp at h
  | softlib => rw [hv] at h; simp at h

theorem numericVector_lt (erange : Str → Bool) (vs : List Str) (h : isNumericVector erange vs = .val true) :
    ∀ i, i < vs.length → ∃ t, getScalar erange vs i = .val t := by
  induction vs with
  | nil => intro i hi; simp at hi
  | cons v vs ih =>
    rw [isNumericVector] at h
    intro i hi
    cases hv : stod erange v with
    | val t =>
      rw [hv] at h
      cases i with
      | zero => exact ⟨t, by simp [getScalar, atIdx, hv]⟩
      | succ i =>
        obtain ⟨t, ht⟩ := ih h i (by simpa using hi)
        exact ⟨t, by simpa [getScalar, atIdx] using ht⟩
    | invalid => rw [hv] at h; simp at h
    | range => rw [hv] at h; simp at h
    | softlib => rw [hv] at h; simp at h

theorem build_script_not_late {R : Type} (o : RealOps R) (erange : Str → Bool) (conv : Str → R) (vs : List Str) :
    buildValues o (scriptSource erange conv vs) ≠ .late := by
  have one : ∀ {α : Type} (get : Nat → Got α) (v : Str), vs = [v] → (∃ a, get 0 = .val a) →
      ∀ k, Got.val vs.length = .val k → ∀ i, i < k → ∃ a, get i = .val a := by
    intro α get v hv h k hk i hi
    subst hv
    simp only [List.length_singleton, Got.val.injEq] at hk
    have : i = 0 := by omega
    subst this
    exact h
  unfold buildValues scriptSource
  dsimp only
  refine askB_not_late _ _ _ (fun h => ?_) (fun _ => ?_)
  · obtain ⟨v, rfl, h⟩ := single_true h
    refine fillB_not_late _ _ _ _ (one _ v rfl ?_)
    exact ((C17_bool_check_matches_get [v] 0 v rfl).1).1 h
  refine askB_not_late _ _ _ (fun h => ?_) (fun _ => ?_)
  · obtain ⟨v, rfl, h⟩ := single_true h
    obtain ⟨a, e, h⟩ := isWhole_true h
    exact fillB_not_late _ _ _ _ (one _ v rfl ⟨a, by simp [getInteger32, atIdx, h, Got.fst]⟩)
  refine askB_not_late _ _ _ (fun h => ?_) (fun _ => ?_)
  · obtain ⟨v, rfl, h⟩ := single_true h
    obtain ⟨a, e, h⟩ := isWhole_true h
    exact fillB_not_late _ _ _ _ (one _ v rfl ⟨a, by simp [getInteger64, atIdx, h, Got.fst]⟩)
  refine askB_not_late _ _ _ (fun h => ?_) (fun _ => ?_)
  · obtain ⟨v, rfl, h⟩ := single_true h
    obtain ⟨a, e, h⟩ := isWhole_true h
    exact fillB_not_late _ _ _ _ (one _ v rfl ⟨a % 2 ^ 32, by simp [getUnsigned32, atIdx, h]⟩)
  refine askB_not_late _ _ _ (fun h => ?_) (fun _ => ?_)
  · obtain ⟨v, rfl, h⟩ := single_true h
    obtain ⟨a, e, h⟩ := isWhole_true h
    exact fillB_not_late _ _ _ _ (one _ v rfl ⟨a, by simp [getUnsigned64, atIdx, h, Got.fst]⟩)
  refine askB_not_late _ _ _ (fun h => ?_) (fun _ => ?_)
  · refine fillB_not_late _ _ _ _ (fun k hk i hi => ?_)
    simp only [Got.val.injEq] at hk
    subst hk
    exact Got.map_lt _ (numericVector_lt erange vs h i hi)
  · refine fillB_not_late _ _ _ _ (fun k hk i hi => ?_)
    simp only [Got.val.injEq] at hk
    subst hk
    exact idx_lt vs 0 (by omega)

/-- Building the new list gives the values of C20, or stops with the exception of C20. -/
theorem fillB_done {R α : Type} (dflt : α) (n : Got Nat) (get : Nat → Got α) (mk : List α → SData R) (d : SData R) :
    fillB dflt n get mk = .done d ↔ (fill dflt n get).map mk = .val d := by
  unfold fillB fill
  cases n with
  | val k =>
    dsimp only [Got.bind]
    cases pushFrom get 0 k (List.replicate k dflt) <;> simp [Got.map]
  | invalid => simp [Got.bind, Got.map]
  | range => simp [Got.bind, Got.map]
  | softlib => simp [Got.bind, Got.map]

theorem askB_done {R : Type} (b : Got Bool) (yes no : Built R) (d : SData R) (y n : Got (SData R))
    (hy : yes = .done d ↔ y = .val d) (hn : no = .done d ↔ n = .val d) :
    askB b yes no = .done d ↔ (b.bind fun b => if b then y else n) = .val d := by
  unfold askB
  cases b with
  | val b => cases b <;> simp [Got.bind, hy, hn]
  | invalid => simp [Got.bind]
  | range => simp [Got.bind]
  | softlib => simp [Got.bind]

theorem build_done {R : Type} (o : RealOps R) (s : Source R) (d : SData R) :
    buildValues o s = .done d ↔ overwriteValues o s = .val d := by
  unfold buildValues overwriteValues
  exact askB_done _ _ _ _ _ _ (fillB_done _ _ _ _ _) <| askB_done _ _ _ _ _ _ (fillB_done _ _ _ _ _) <|
    askB_done _ _ _ _ _ _ (fillB_done _ _ _ _ _) <| askB_done _ _ _ _ _ _ (fillB_done _ _ _ _ _) <|
    askB_done _ _ _ _ _ _ (fillB_done _ _ _ _ _) <| askB_done _ _ _ _ _ _ (fillB_done _ _ _ _ _) <|
    fillB_done _ _ _ _ _

/-- Overwriting never loses a list: when an exception is thrown no list has been made yet.  This holds
for every file setting and every setting of a script, whatever their values are. -/
theorem C102_overwrite_loses_nothing {R : Type} (o : RealOps R) (erange : Str → Bool) (conv : Str → R) :
    (∀ d : SData R, buildValues o (d.source o) ≠ .late) ∧
    (∀ vs : List Str, buildValues o (scriptSource erange conv vs) ≠ .late) :=
  ⟨build_file_not_late o, build_script_not_late o erange conv⟩

/-! ### Every list is in exactly one place -/

/-- Every list that is allocated is held once, by the program or by a setting; a list that is
released is held nowhere. -/
def Owned {R : Type} (w : VWorld R) : Prop :=
  ∀ v, w.mine.count v + w.sets.count (some (some v)) = if (w.read v).isSome then 1 else 0

/-- The setting exists. -/
def Alive {R : Type} (w : VWorld R) (i : Nat) : Prop := ∃ h, w.sets[i]? = some (some h)

/-- A careful operation: lists are handed over (or released) by the program that has them, settings
exist, and settings are not copied as objects. -/
def CarefulV {R : Type} (w : VWorld R) : VOp R → Prop
  | .vector _ => True
  | .release v => v ∈ w.mine
  | .construct v => v ∈ w.mine
  | .set i v => v ∈ w.mine ∧ Alive w i
  | .clear i => Alive w i
  | .overwrite i j => Alive w i ∧ Alive w j
  | .overwriteScript i _ => Alive w i
  | .copy i => Alive w i
  | .copyObject _ => False
  | .get i => Alive w i
  | .destroy i => Alive w i

theorem slot_count (s : List (Option (Option Nat))) (i : Nat) (h : Option Nat) (hs : s[i]? = some (some h))
    (y : Option (Option Nat)) (v : Nat) :
    (s.set i y).count (some (some v)) + (if h = some v then 1 else 0) =
      s.count (some (some v)) + (if y = some (some v) then 1 else 0) := by
  induction s generalizing i with
  | nil => simp at hs
  | cons x s ih =>
    cases i with
    | zero =>
      simp only [List.getElem?_cons_zero, Option.some.injEq] at hs
      subst hs
      simp only [List.set_cons_zero, List.count_cons, beq_iff_eq, Option.some.injEq]
      omega
    | succ i =>
      simp only [List.getElem?_cons_succ] at hs
      have := ih i hs
      simp only [List.set_cons_succ, List.count_cons]
      omega

theorem read_alloc {R : Type} (w : VWorld R) (d : SData R) (x : Nat) :
    (w.alloc d).read x = if x = w.heap.length then some d else w.read x := by
  unfold VWorld.read VWorld.alloc
  dsimp only
  rcases Nat.lt_trichotomy x w.heap.length with h | h | h
  · rw [List.getElem?_append_left h, if_neg (by omega)]
  · subst h; simp
  · rw [List.getElem?_eq_none (by simp; omega), if_neg (by omega), List.getElem?_eq_none (by omega)]

theorem read_len {R : Type} (w : VWorld R) : w.read w.heap.length = none := by
  unfold VWorld.read
  simp

theorem free_ok {R : Type} (w : VWorld R) (v : Nat) (h : (w.read v).isSome) :
    ∃ w', w.free v = some w' ∧ w'.mine = w.mine ∧ w'.sets = w.sets ∧ w'.heap.length = w.heap.length ∧
      ∀ x, w'.read x = if x = v then none else w.read x := by
  obtain ⟨d, hd⟩ := Option.isSome_iff_exists.mp h
  refine ⟨{ w with heap := w.heap.set v none }, by unfold VWorld.free; rw [hd], rfl, rfl, by simp, fun x => ?_⟩
  unfold VWorld.read
  by_cases hx : x = v
  · subst hx
    rw [if_pos rfl, List.getElem?_set]
    simp only [if_true]
    split <;> rfl
  · rw [if_neg hx, List.getElem?_set_ne (fun e => hx e.symm)]

theorem free_bad {R : Type} (w : VWorld R) (v : Nat) (h : w.read v = none) : w.free v = none := by
  unfold VWorld.free; rw [h]

theorem drop_ok {R : Type} (w : VWorld R) (i : Nat) (h : Option Nat) (hi : w.sets[i]? = some (some h))
    (hr : ∀ v, h = some v → (w.read v).isSome) :
    ∃ w', w.drop i = some w' ∧ w'.mine = w.mine ∧ w'.sets = w.sets.set i (some none) ∧
      w'.heap.length = w.heap.length ∧ ∀ x, w'.read x = if h = some x then none else w.read x := by
  have hl := (List.getElem?_eq_some_iff.mp hi).1
  have hi' := (List.getElem?_eq_some_iff.mp hi).2
  unfold VWorld.drop
  rw [hi]
  cases h with
  | none =>
    refine ⟨w, rfl, rfl, ?_, rfl, fun x => by simp⟩
    rw [← hi', List.set_getElem_self]
  | some v =>
    obtain ⟨w1, h1, h2, h3, h4, h5⟩ := free_ok w v (hr v rfl)
    refine ⟨{ w1 with sets := w1.sets.set i (some none) }, by dsimp only; rw [h1], h2, by simp [h3], h4, fun x => ?_⟩
    have : VWorld.read { w1 with sets := w1.sets.set i (some none) } x = w1.read x := rfl
    rw [this, h5 x]
    by_cases hx : x = v
    · simp [hx]
    · rw [if_neg hx, if_neg (fun e => hx (Option.some.inj e).symm)]

theorem setValue_ok {R : Type} (w : VWorld R) (i : Nat) (h : Option Nat) (hi : w.sets[i]? = some (some h))
    (hr : ∀ v, h = some v → (w.read v).isSome) (n : Nat) :
    ∃ w', w.setValue i n = some w' ∧ w'.mine = w.mine ∧ w'.sets = w.sets.set i (some (some n)) ∧
      w'.heap.length = w.heap.length ∧ ∀ x, w'.read x = if h = some x then none else w.read x := by
  obtain ⟨w1, h1, h2, h3, h4, h5⟩ := drop_ok w i h hi hr
  refine ⟨{ w1 with sets := w1.sets.set i (some (some n)) }, by unfold VWorld.setValue; rw [h1], h2, ?_, h4, h5⟩
  simp [h3]

theorem Owned.held {R : Type} {w : VWorld R} (hw : Owned w) {i : Nat} {h : Option Nat}
    (hi : w.sets[i]? = some (some h)) : ∀ v, h = some v → (w.read v).isSome := by
  rintro v rfl
  have hm : some (some v) ∈ w.sets := List.mem_of_getElem? hi
  have := List.count_pos_iff.mpr hm
  have := hw v
  split at this
  · assumption
  · omega

theorem Owned.contents {R : Type} {w : VWorld R} (hw : Owned w) {i : Nat} (hi : Alive w i) :
    ∃ d, w.contents i = some d := by
  obtain ⟨h, hi⟩ := hi
  have := hw.held hi
  unfold VWorld.contents
  rw [hi]
  cases h with
  | none => exact ⟨_, rfl⟩
  | some v => exact Option.isSome_iff_exists.mp (this v rfl)

theorem Owned.mine {R : Type} {w : VWorld R} (hw : Owned w) {v : Nat} (hv : v ∈ w.mine) :
    (w.read v).isSome ∧ w.mine.count v = 1 ∧ w.sets.count (some (some v)) = 0 := by
  have := List.count_pos_iff.mpr hv
  have := hw v
  split at this
  · exact ⟨by assumption, by omega, by omega⟩
  · omega

theorem Owned.slot {R : Type} {w : VWorld R} (hw : Owned w) {i : Nat} {v : Nat}
    (hi : w.sets[i]? = some (some (some v))) : w.mine.count v = 0 ∧ w.sets.count (some (some v)) = 1 := by
  have hm : some (some v) ∈ w.sets := List.mem_of_getElem? hi
  have := List.count_pos_iff.mpr hm
  have := hw v
  split at this <;> omega

theorem drop_owned {R : Type} (w : VWorld R) (hw : Owned w) (i : Nat) (h : Option Nat)
    (hi : w.sets[i]? = some (some h)) (y : Option (Option Nat)) (hy : ∀ v, y ≠ some (some v)) (w' : VWorld R)
    (hm : w'.mine = w.mine) (hs : w'.sets = w.sets.set i y)
    (hr : ∀ x, w'.read x = if h = some x then none else w.read x) : Owned w' := by
  intro x
  have h1 := slot_count w.sets i h hi y x
  have h2 := hw x
  rw [if_neg (hy x)] at h1
  rw [hm, hs, hr x]
  by_cases hx : h = some x
  · subst hx
    have := hw.slot hi
    simp only [if_true] at h1 ⊢
    simp
    omega
  · rw [if_neg hx] at h1 ⊢
    omega

theorem set_owned {R : Type} (w : VWorld R) (hw : Owned w) (i : Nat) (h : Option Nat)
    (hi : w.sets[i]? = some (some h)) (v : Nat) (hv : v ∈ w.mine) (w' : VWorld R)
    (hm : w'.mine = w.mine.erase v) (hs : w'.sets = w.sets.set i (some (some v)))
    (hr : ∀ x, w'.read x = if h = some x then none else w.read x) : Owned w' := by
  obtain ⟨m1, m2, m3⟩ := hw.mine hv
  intro x
  have h1 := slot_count w.sets i h hi (some (some v)) x
  have h2 := hw x
  have h3 : (w.mine.erase v).count x = w.mine.count x - (if v = x then 1 else 0) := by
    rw [List.count_erase]
    simp
  rw [hm, hs, hr x, h3]
  by_cases hx : h = some x
  · subst hx
    have := hw.slot hi
    have hne : v ≠ x := by rintro rfl; omega
    simp only [if_true, Option.some.injEq, hne, if_false] at h1 ⊢
    simp
    omega
  · rw [if_neg hx] at h1 ⊢
    by_cases hvx : v = x
    · subst hvx
      simp only [if_true, m1] at h1 h2 ⊢
      omega
    · simp only [Option.some.injEq, hvx, if_false] at h1 ⊢
      omega

theorem overwrite_owned {R : Type} (w : VWorld R) (hw : Owned w) (i : Nat) (h : Option Nat)
    (hi : w.sets[i]? = some (some h)) (d : SData R) :
    ∃ w', w.overwrite i (.done d) = .ok w' ∧ Owned w' ∧ w'.sets = w.sets.set i (some (some w.heap.length)) ∧
      ∀ x, w'.read x = if h = some x then none else if x = w.heap.length then some d else w.read x := by
  have hh := hw.held hi
  have hn : h ≠ some w.heap.length := by
    intro e
    have := hh _ e
    rw [read_len] at this
    simp at this
  obtain ⟨w', h1, h2, h3, _, h5⟩ := setValue_ok (w.alloc d) i h hi (fun v hv => by
    rw [read_alloc]; split
    · rfl
    · exact hh v hv) w.heap.length
  have hr : ∀ x, w'.read x = if h = some x then none else if x = w.heap.length then some d else w.read x := by
    intro x; rw [h5 x, read_alloc]
  refine ⟨w', by unfold VWorld.overwrite; dsimp only; rw [h1], fun x => ?_, h3, hr⟩
  have s1 := slot_count w.sets i h hi (some (some w.heap.length)) x
  have s2 := hw x
  have h2' : w'.mine = w.mine := h2
  have h3' : w'.sets = w.sets.set i (some (some w.heap.length)) := h3
  rw [h2', h3', hr x]
  by_cases hx : h = some x
  · subst hx
    have := hw.slot hi
    have hne : w.heap.length ≠ x := fun e => hn (by rw [e])
    simp only [if_true, Option.some.injEq, hne, if_false] at s1 ⊢
    simp
    omega
  · rw [if_neg hx] at s1 ⊢
    by_cases hl : x = w.heap.length
    · subst hl
      rw [read_len] at s2
      simp at s1 s2 ⊢
      omega
    · have : ¬ w.heap.length = x := fun e => hl e.symm
      simp only [Option.some.injEq, this, hl, if_false] at s1 ⊢
      omega

/-- One careful operation is defined; afterwards every list is again in exactly one place; and an
exception leaves everything as it was. -/
theorem C102_step {R : Type} (o : RealOps R) (erange : Str → Bool) (conv : Str → R) (w : VWorld R) (hw : Owned w)
    (op : VOp R) (hc : CarefulV w op) :
    (∃ w', vStep o erange conv w op = .ok w' ∧ Owned w') ∨ vStep o erange conv w op = .throws w := by
  cases op with
  | vector d =>
    refine .inl ⟨_, rfl, fun x => ?_⟩
    have hr : VWorld.read { w.alloc d with mine := w.heap.length :: w.mine } x = (w.alloc d).read x := rfl
    have h2 := hw x
    rw [hr, read_alloc]
    show (w.heap.length :: w.mine).count x + w.sets.count (some (some x)) = _
    rw [List.count_cons]
    by_cases hx : x = w.heap.length
    · subst hx
      rw [read_len] at h2
      simp at h2 ⊢
      omega
    · rw [if_neg hx]
      have hx' : ¬ w.heap.length = x := fun e => hx e.symm
      simp only [beq_iff_eq, hx', if_false]
      omega
  | release v =>
    have hv : v ∈ w.mine := hc
    obtain ⟨m1, m2, m3⟩ := hw.mine hv
    obtain ⟨w1, h1, h2, h3, h4, h5⟩ := free_ok w v m1
    refine .inl ⟨{ w1 with mine := w1.mine.erase v }, by simp only [vStep, h1], fun x => ?_⟩
    have hr : VWorld.read { w1 with mine := w1.mine.erase v } x = w1.read x := rfl
    have h2' := hw x
    rw [hr, h5 x]
    show (w1.mine.erase v).count x + w1.sets.count (some (some x)) = _
    rw [h2, h3, List.count_erase]
    by_cases hx : x = v
    · subst hx; simp; omega
    · rw [if_neg hx]
      have hx' : ¬ v = x := fun e => hx e.symm
      simp only [beq_iff_eq, hx', if_false]
      omega
  | construct v =>
    have hv : v ∈ w.mine := hc
    obtain ⟨m1, m2, m3⟩ := hw.mine hv
    refine .inl ⟨_, rfl, fun x => ?_⟩
    have h2' := hw x
    show (w.mine.erase v).count x + (w.sets ++ [some (some v)]).count (some (some x)) = if (w.read x).isSome then 1 else 0
    rw [List.count_erase, List.count_append, List.count_singleton]
    by_cases hx : v = x
    · subst hx
      simp only [beq_self_eq_true, if_true, m1] at h2' ⊢
      omega
    · simp only [beq_iff_eq, Option.some.injEq, hx, if_false]
      omega
  | set i v =>
    obtain ⟨hv, h, hi⟩ := hc
    obtain ⟨w1, h1, h2, h3, h4, h5⟩ := setValue_ok w i h hi (hw.held hi) v
    exact .inl ⟨{ w1 with mine := w1.mine.erase v }, by simp only [vStep, h1],
      set_owned w hw i h hi v hv _ (by simp [h2]) h3 h5⟩
  | clear i =>
    obtain ⟨h, hi⟩ := hc
    obtain ⟨w1, h1, h2, h3, h4, h5⟩ := drop_ok w i h hi (hw.held hi)
    exact .inl ⟨w1, by simp only [vStep, h1], drop_owned w hw i h hi _ (by simp) _ h2 h3 h5⟩
  | overwrite i j =>
    obtain ⟨⟨h, hi⟩, hj⟩ := hc
    obtain ⟨d, hd⟩ := hw.contents hj
    simp only [vStep, hi, hd]
    cases hb : buildValues o (d.source o) with
    | early => exact .inr rfl
    | late => exact absurd hb (build_file_not_late o d)
    | done d' =>
      obtain ⟨w', e, hw', _⟩ := overwrite_owned w hw i h hi d'
      exact .inl ⟨w', e, hw'⟩
  | overwriteScript i vs =>
    obtain ⟨h, hi⟩ := hc
    simp only [vStep, hi]
    cases hb : buildValues o (scriptSource erange conv vs) with
    | early => exact .inr rfl
    | late => exact absurd hb (build_script_not_late o erange conv vs)
    | done d' =>
      obtain ⟨w', e, hw', _⟩ := overwrite_owned w hw i h hi d'
      exact .inl ⟨w', e, hw'⟩
  | copy i =>
    obtain ⟨d, hd⟩ := hw.contents hc
    simp only [vStep, hd, VWorld.copy]
    cases hcp : d.copy with
    | val p =>
      refine .inl ⟨_, rfl, fun x => ?_⟩
      have h2' := hw x
      have hr : VWorld.read { w.alloc p.2 with sets := w.sets ++ [some (some w.heap.length)] } x =
        (w.alloc p.2).read x := rfl
      rw [hr, read_alloc]
      show w.mine.count x + (w.sets ++ [some (some w.heap.length)]).count (some (some x)) = _
      rw [List.count_append, List.count_singleton]
      by_cases hx : x = w.heap.length
      · subst hx
        rw [read_len] at h2'
        simp at h2' ⊢
        omega
      · rw [if_neg hx]
        have hx' : ¬ w.heap.length = x := fun e => hx e.symm
        simp only [beq_iff_eq, Option.some.injEq, hx', if_false]
        omega
    | invalid => exact .inr rfl
    | range => exact .inr rfl
    | softlib => exact .inr rfl
  | copyObject i => exact absurd hc (by simp [CarefulV])
  | get i =>
    obtain ⟨d, hd⟩ := hw.contents hc
    exact .inl ⟨w, by simp only [vStep, hd], hw⟩
  | destroy i =>
    obtain ⟨h, hi⟩ := hc
    obtain ⟨w1, h1, h2, h3, h4, h5⟩ := drop_ok w i h hi (hw.held hi)
    refine .inl ⟨{ w1 with sets := w1.sets.set i none }, by simp only [vStep, h1],
      drop_owned w hw i h hi none (by simp) _ h2 ?_ h5⟩
    simp [h3]

/-- A program all of whose operations are careful when they are reached. -/
def CarefulProg {R : Type} (o : RealOps R) (erange : Str → Bool) (conv : Str → R) (w : VWorld R) :
    List (VOp R) → Prop
  | [] => True
  | op :: ops => CarefulV w op ∧
    match vStep o erange conv w op with
    | .ok w' => CarefulProg o erange conv w' ops
    | .throws w' => CarefulProg o erange conv w' ops
    | .ub => True

/-- **C102** for careful programs of any length: no operation uses or releases a list that was
released, and at every moment each allocated list is held in exactly one place (nothing is lost). -/
theorem C102_ownership_partial {R : Type} (o : RealOps R) (erange : Str → Bool) (conv : Str → R) (ops : List (VOp R))
    (h : CarefulProg o erange conv (VWorld.empty R) ops) :
    ∃ w, vRun o erange conv (VWorld.empty R) ops = some w ∧ Owned w := by
  have h0 : Owned (VWorld.empty R) := by intro v; simp [VWorld.empty, VWorld.read]
  revert h0 h
  generalize VWorld.empty R = w
  induction ops generalizing w with
  | nil => intro _ h0; exact ⟨w, rfl, h0⟩
  | cons op ops ih =>
    rintro ⟨hc, h⟩ h0
    rw [vRun]
    rcases C102_step o erange conv w h0 op hc with ⟨w', e, hw'⟩ | e
    · rw [e] at h ⊢; exact ih w' h hw'
    · rw [e] at h ⊢; exact ih w h h0

/-- When the program has released its own lists and destroyed its settings, no list is left. -/
theorem C102_nothing_left {R : Type} (o : RealOps R) (erange : Str → Bool) (conv : Str → R) (ops : List (VOp R))
    (h : CarefulProg o erange conv (VWorld.empty R) ops) (w : VWorld R)
    (hr : vRun o erange conv (VWorld.empty R) ops = some w)
    (h1 : w.mine = []) (h2 : ∀ s ∈ w.sets, s = none) : ∀ x ∈ w.heap, x = none := by
  obtain ⟨w', e, hw⟩ := C102_ownership_partial o erange conv ops h
  rw [hr] at e
  cases e
  intro x hx
  obtain ⟨v, hv⟩ := List.getElem?_of_mem hx
  have h3 := hw v
  have h4 : w.sets.count (some (some v)) = 0 := List.count_eq_zero.mpr (fun hm => by cases h2 _ hm)
  rw [h1, h4] at h3
  cases x with
  | none => rfl
  | some d =>
    have : w.read v = some d := by unfold VWorld.read; rw [hv]; rfl
    rw [this] at h3
    simp at h3

/-! ### Values of one setting are not those of another -/

theorem Owned.apart {R : Type} {w : VWorld R} (hw : Owned w) {i k v : Nat} (hik : k ≠ i)
    (hi : w.sets[i]? = some (some (some v))) (hk : w.sets[k]? = some (some (some v))) : False := by
  have h1 := (hw.slot hi).2
  have h2 := slot_count w.sets i (some v) hi none v
  have h3 : (w.sets.set i none)[k]? = some (some (some v)) := by
    rw [List.getElem?_set_ne (fun e => hik e.symm)]; exact hk
  have h4 := List.count_pos_iff.mpr (List.mem_of_getElem? h3)
  simp at h2
  omega

theorem contents_other {R : Type} {w w' : VWorld R} (hw : Owned w) {i : Nat} {h : Option Nat}
    (hi : w.sets[i]? = some (some h)) (y : Option (Option Nat)) (hs : w'.sets = w.sets.set i y)
    (hr : ∀ x, (w.read x).isSome → w'.read x = if h = some x then none else w.read x) (k : Nat) (hk : k ≠ i) :
    w'.contents k = w.contents k := by
  unfold VWorld.contents
  rw [hs, List.getElem?_set_ne (fun e => hk e.symm)]
  cases hx : w.sets[k]? with
  | none => rfl
  | some s =>
    cases s with
    | none => rfl
    | some t =>
      cases t with
      | none => rfl
      | some v =>
        dsimp only
        rw [hr v (hw.held hx v rfl)]
        split
        · rename_i e
          subst e
          exact (hw.apart hk hi hx).elim
        · rfl

theorem contents_self {R : Type} {w w' : VWorld R} {i : Nat} {h : Option Nat}
    (hi : w.sets[i]? = some (some h)) (y : Option (Option Nat)) (hs : w'.sets = w.sets.set i y) :
    w'.contents i = match (generalizing := false) y with
      | some none => some .unspecified
      | some (some v) => w'.read v
      | none => none := by
  have hl := (List.getElem?_eq_some_iff.mp hi).1
  unfold VWorld.contents
  rw [hs, List.getElem?_set_self hl]
  cases y with
  | none => rfl
  | some y => cases y <;> rfl

theorem overwrite_values {R : Type} (o : RealOps R) (s : Source R) (hl : buildValues o s ≠ .late) (w : VWorld R)
    (hw : Owned w) (i : Nat) (hi : Alive w i) :
    (∀ d, overwriteValues o s = .val d →
      ∃ w', w.overwrite i (buildValues o s) = .ok w' ∧
        ∀ k, w'.contents k = if k = i then some d else w.contents k) ∧
    ((∀ d, overwriteValues o s ≠ .val d) → w.overwrite i (buildValues o s) = .throws w) := by
  obtain ⟨h, hi⟩ := hi
  constructor
  · intro d hd
    rw [(build_done o s d).mpr hd]
    obtain ⟨w', e, _, hs, hr⟩ := overwrite_owned w hw i h hi d
    refine ⟨w', e, fun k => ?_⟩
    by_cases hk : k = i
    · subst hk
      rw [if_pos rfl, contents_self hi _ hs]
      dsimp only
      rw [hr, if_neg, if_pos rfl]
      intro e
      have := hw.held hi _ e
      rw [read_len] at this
      cases this
    · rw [if_neg hk]
      refine contents_other hw hi _ hs (fun x hx => ?_) k hk
      rw [hr x]
      split
      · rfl
      · split
        · rename_i e
          subst e
          rw [read_len] at hx
          cases hx
        · rfl
  · intro hn
    cases hb : buildValues o s with
    | early => rfl
    | late => exact absurd hb hl
    | done d => exact absurd ((build_done o s d).mp hb) (hn d)

/-- What the operations do to the values: setting, overwriting (with any setting, also with itself),
clearing and destroying change the values of the one setting they are called for, and an overwriting
that throws changes nothing.  The values after overwriting are those of C20. -/
theorem C102_values {R : Type} (o : RealOps R) (erange : Str → Bool) (conv : Str → R) (w : VWorld R) (hw : Owned w)
    (i : Nat) (hi : Alive w i) :
    (∀ v d, v ∈ w.mine → w.read v = some d → ∃ w', vStep o erange conv w (.set i v) = .ok w' ∧
      ∀ k, w'.contents k = if k = i then some d else w.contents k) ∧
    (∃ w', vStep o erange conv w (.clear i) = .ok w' ∧
      ∀ k, w'.contents k = if k = i then some .unspecified else w.contents k) ∧
    (∃ w', vStep o erange conv w (.destroy i) = .ok w' ∧
      ∀ k, w'.contents k = if k = i then none else w.contents k) ∧
    (∀ j dj, w.contents j = some dj →
      (∀ d, overwriteValues o (dj.source o) = .val d → ∃ w', vStep o erange conv w (.overwrite i j) = .ok w' ∧
        ∀ k, w'.contents k = if k = i then some d else w.contents k) ∧
      ((∀ d, overwriteValues o (dj.source o) ≠ .val d) → vStep o erange conv w (.overwrite i j) = .throws w)) ∧
    (∀ vs,
      (∀ d, overwriteValues o (scriptSource erange conv vs) = .val d →
        ∃ w', vStep o erange conv w (.overwriteScript i vs) = .ok w' ∧
        ∀ k, w'.contents k = if k = i then some d else w.contents k) ∧
      ((∀ d, overwriteValues o (scriptSource erange conv vs) ≠ .val d) →
        vStep o erange conv w (.overwriteScript i vs) = .throws w)) := by
  obtain ⟨h, hi'⟩ := id hi
  refine ⟨fun v d hv hd => ?_, ?_, ?_, fun j dj hj => ?_, fun vs => ?_⟩
  · obtain ⟨w1, h1, h2, h3, h4, h5⟩ := setValue_ok w i h hi' (hw.held hi') v
    refine ⟨{ w1 with mine := w1.mine.erase v }, by simp only [vStep, h1], fun k => ?_⟩
    show w1.contents k = _
    by_cases hk : k = i
    · subst hk
      rw [if_pos rfl, contents_self hi' _ h3]
      dsimp only
      rw [h5, if_neg, hd]
      rintro rfl
      have := (hw.mine hv).2.1
      have := (hw.slot hi').1
      omega
    · rw [if_neg hk]
      exact contents_other hw hi' _ h3 (fun x _ => h5 x) k hk
  · obtain ⟨w1, h1, h2, h3, h4, h5⟩ := drop_ok w i h hi' (hw.held hi')
    refine ⟨w1, by simp only [vStep, h1], fun k => ?_⟩
    by_cases hk : k = i
    · subst hk
      rw [if_pos rfl, contents_self hi' _ h3]
    · rw [if_neg hk]
      exact contents_other hw hi' _ h3 (fun x _ => h5 x) k hk
  · obtain ⟨w1, h1, h2, h3, h4, h5⟩ := drop_ok w i h hi' (hw.held hi')
    have h3' : ({ w1 with sets := w1.sets.set i none } : VWorld R).sets = w.sets.set i none := by simp [h3]
    refine ⟨{ w1 with sets := w1.sets.set i none }, by simp only [vStep, h1], fun k => ?_⟩
    by_cases hk : k = i
    · subst hk
      rw [if_pos rfl, contents_self hi' _ h3']
    · rw [if_neg hk]
      exact contents_other hw hi' _ h3' (fun x _ => h5 x) k hk
  · have := overwrite_values o (dj.source o) (build_file_not_late o dj) w hw i hi
    simpa only [vStep, hi', hj] using this
  · have := overwrite_values o (scriptSource erange conv vs) (build_script_not_late o erange conv vs) w hw i hi
    simpa only [vStep, hi'] using this

/-- A copy is a setting of its own: it has the values of the original (for the five types that can be
copied), and nothing else changes.  Settings of real numbers or texts are not copied; nothing is lost. -/
theorem C102_copy {R : Type} (o : RealOps R) (erange : Str → Bool) (conv : Str → R) (w : VWorld R) (hw : Owned w)
    (i : Nat) (d : SData R) (hd : w.contents i = some d) :
    ((d = .unspecified ∨ (∃ l, d = .real l) ∨ ∃ l, d = .string l) ∧ vStep o erange conv w (.copy i) = .throws w) ∨
    ∃ w', vStep o erange conv w (.copy i) = .ok w' ∧ w'.sets.length = w.sets.length + 1 ∧
      ∀ k, w'.contents k = if k = w.sets.length then some d else w.contents k := by
  simp only [vStep, hd]
  unfold VWorld.copy
  have key : ∀ d' : SData R, ∀ k, ({ w.alloc d' with sets := w.sets ++ [some (some w.heap.length)] } : VWorld R).contents k =
      if k = w.sets.length then some d' else w.contents k := by
    intro d' k
    have hrd : ∀ x, ({ w.alloc d' with sets := w.sets ++ [some (some w.heap.length)] } : VWorld R).read x =
      (w.alloc d').read x := fun _ => rfl
    unfold VWorld.contents
    dsimp only
    rcases Nat.lt_trichotomy k w.sets.length with h | h | h
    · rw [List.getElem?_append_left h, if_neg (by omega)]
      cases hx : w.sets[k]? with
      | none => rfl
      | some s =>
        cases s with
        | none => rfl
        | some t =>
          cases t with
          | none => rfl
          | some v =>
            dsimp only
            rw [hrd, read_alloc, if_neg]
            rintro rfl
            have := hw.held hx _ rfl
            rw [read_len] at this
            cases this
    · subst h
      simp only [List.getElem?_append_right (Nat.le_refl _), Nat.sub_self, List.getElem?_cons_zero, if_true]
      rw [hrd, read_alloc, if_pos rfl]
    · rw [List.getElem?_eq_none (by simp; omega), if_neg (by omega), List.getElem?_eq_none (by omega)]
  cases d with
  | unspecified => exact .inl ⟨.inl rfl, rfl⟩
  | real l => exact .inl ⟨.inr (.inl ⟨l, rfl⟩), rfl⟩
  | string l => exact .inl ⟨.inr (.inr ⟨l, rfl⟩), rfl⟩
  | bool l => exact .inr ⟨_, rfl, by simp, key _⟩
  | int32 l => exact .inr ⟨_, rfl, by simp, key _⟩
  | int64 l => exact .inr ⟨_, rfl, by simp, key _⟩
  | uint32 l => exact .inr ⟨_, rfl, by simp, key _⟩
  | uint64 l => exact .inr ⟨_, rfl, by simp, key _⟩

/-! ### Where it fails -/

/-- Refutation: the class can be copied as an object, and the copy holds the same list.  In every
situation, destroying both is undefined behaviour, and so is using one after the other was destroyed. -/
theorem C102_refuted_copied_object {R : Type} (o : RealOps R) (erange : Str → Bool) (conv : Str → R) (w : VWorld R)
    (hw : Owned w) (i v : Nat) (hi : w.sets[i]? = some (some (some v))) :
    vRun o erange conv w [.copyObject i, .destroy i, .destroy w.sets.length] = none ∧
    vRun o erange conv w [.copyObject i, .destroy w.sets.length, .get i] = none ∧
    vRun o erange conv w [.copyObject i, .clear i, .get w.sets.length] = none := by
  have hl := (List.getElem?_eq_some_iff.mp hi).1
  have hr := hw.held hi v rfl
  have hi1 : (w.sets ++ [some (some v)])[i]? = some (some (some v)) := by rw [List.getElem?_append_left hl]; exact hi
  have hi2 : (w.sets ++ [some (some v)])[w.sets.length]? = some (some (some v)) := by
    simp
  have e1 : vStep o erange conv w (.copyObject i) = .ok { w with sets := w.sets ++ [some (some v)] } := by
    simp only [vStep, hi]
  -- releasing the list through one of them makes the other useless
  have bad : ∀ (w' : VWorld R) (k : Nat), w'.sets[k]? = some (some (some v)) → w'.read v = none →
      w'.contents k = none ∧ w'.drop k = none := by
    intro w' k h1 h2
    refine ⟨by simp only [VWorld.contents, h1, h2], by simp only [VWorld.drop, h1, free_bad w' v h2]⟩
  have hne : w.sets.length ≠ i := by omega
  refine ⟨?_, ?_, ?_⟩
  · obtain ⟨w1, h1, h2, h3, h4, h5⟩ := drop_ok { w with sets := w.sets ++ [some (some v)] } i (some v) hi1
      (fun x hx => by cases hx; exact hr)
    have := bad { w1 with sets := w1.sets.set i none } w.sets.length
      (by dsimp only; rw [List.getElem?_set_ne (fun e => hne e.symm), h3, List.getElem?_set_ne (fun e => hne e.symm)]; exact hi2)
      (by show w1.read v = none; rw [h5 v, if_pos rfl])
    simp only [vRun, e1]
    simp only [vStep, h1, this.2]
  · obtain ⟨w1, h1, h2, h3, h4, h5⟩ := drop_ok { w with sets := w.sets ++ [some (some v)] } w.sets.length (some v) hi2
      (fun x hx => by cases hx; exact hr)
    have := bad { w1 with sets := w1.sets.set w.sets.length none } i
      (by dsimp only; rw [List.getElem?_set_ne hne, h3, List.getElem?_set_ne hne]; exact hi1)
      (by show w1.read v = none; rw [h5 v, if_pos rfl])
    simp only [vRun, e1]
    simp only [vStep, h1, this.1]
  · obtain ⟨w1, h1, h2, h3, h4, h5⟩ := drop_ok { w with sets := w.sets ++ [some (some v)] } i (some v) hi1
      (fun x hx => by cases hx; exact hr)
    have := bad w1 w.sets.length
      (by rw [h3, List.getElem?_set_ne (fun e => hne e.symm)]; exact hi2)
      (by rw [h5 v, if_pos rfl])
    simp only [vRun, e1]
    simp only [vStep, h1, this.1]

/-- Refutation: setting the list that a setting already holds (it is a public member) releases the list
and keeps it; in every situation the next use of the setting is undefined behaviour. -/
theorem C102_refuted_same_list {R : Type} (o : RealOps R) (erange : Str → Bool) (conv : Str → R) (w : VWorld R)
    (hw : Owned w) (i v : Nat) (hi : w.sets[i]? = some (some (some v))) :
    vRun o erange conv w [.set i v, .get i] = none ∧ vRun o erange conv w [.set i v, .destroy i] = none := by
  have hl := (List.getElem?_eq_some_iff.mp hi).1
  obtain ⟨w1, h1, h2, h3, h4, h5⟩ := setValue_ok w i (some v) hi (hw.held hi) v
  have h6 : w1.sets[i]? = some (some (some v)) := by rw [h3, List.getElem?_set_self hl]
  have h7 : w1.read v = none := by rw [h5 v, if_pos rfl]
  have e1 : vStep o erange conv w (.set i v) = .ok { w1 with mine := w1.mine.erase v } := by simp only [vStep, h1]
  have c1 : VWorld.contents { w1 with mine := w1.mine.erase v } i = none := by
    show w1.contents i = none
    simp only [VWorld.contents, h6, h7]
  have c2 : VWorld.drop { w1 with mine := w1.mine.erase v } i = none := by
    simp only [VWorld.drop, h6]
    have : VWorld.free { w1 with mine := w1.mine.erase v } v = none := free_bad _ v h7
    rw [this]
  constructor
  · simp only [vRun, e1]
    simp only [vStep, c1]
  · simp only [vRun, e1]
    simp only [vStep, c2]

/-- Conversely, exactly the lists a setting holds must not have been released: destroying a setting is
defined exactly when the setting exists and its list, if it has one, is allocated. -/
theorem C102_destroy_iff {R : Type} (o : RealOps R) (erange : Str → Bool) (conv : Str → R) (w : VWorld R) (i : Nat) :
    vStep o erange conv w (.destroy i) ≠ .ub ↔ ∃ d, w.contents i = some d := by
  have key : (∃ w', w.drop i = some w') ↔ ∃ d, w.contents i = some d := by
    unfold VWorld.drop VWorld.contents
    cases w.sets[i]? with
    | none => simp
    | some s =>
      cases s with
      | none => simp
      | some t =>
        cases t with
        | none => simp
        | some v =>
          dsimp only
          unfold VWorld.free
          cases w.read v <;> simp
  rw [← key]
  simp only [vStep]
  cases w.drop i <;> simp

instance {R : Type} (w : VWorld R) (i : Nat) : Decidable (Alive w i) :=
  decidable_of_iff ((w.sets[i]?).join.isSome = true) (by
    unfold Alive
    cases w.sets[i]? with
    | none => simp
    | some s => cases s <;> simp)

instance {R : Type} (w : VWorld R) (op : VOp R) : Decidable (CarefulV w op) := by
  cases op <;> unfold CarefulV <;> infer_instance

instance carefulProgDec {R : Type} (o : RealOps R) (erange : Str → Bool) (conv : Str → R) :
    (ops : List (VOp R)) → (w : VWorld R) → Decidable (CarefulProg o erange conv w ops)
  | [], _ => isTrue trivial
  | op :: ops, w => by
    unfold CarefulProg
    cases vStep o erange conv w op with
    | ok w' => have := carefulProgDec o erange conv ops w'; dsimp only; infer_instance
    | throws w' => have := carefulProgDec o erange conv ops w'; dsimp only; infer_instance
    | ub => dsimp only; infer_instance

/-- A careful program: two lists, a setting of each, the first overwritten with the second and with
itself, a copy, and everything destroyed. -/
def memDemo : List (VOp Int) :=
  [.vector (.int32 [1, 2]), .vector (.bool [true]), .construct 0, .construct 1, .overwrite 0 1, .overwrite 0 0,
   .copy 0, .overwriteScript 1 ["x".toList, "y".toList], .get 0, .destroy 0, .get 2, .vector (.real [7]), .set 2 6,
   .clear 1, .destroy 1, .destroy 2]

example : CarefulProg intOps (fun _ => false) (fun _ => 0) (VWorld.empty Int) memDemo := by
  decide +kernel

/-- It runs to the end and leaves nothing; the copy still has its values when the original is gone. -/
example : vRun intOps (fun _ => false) (fun _ => 0) (VWorld.empty Int) memDemo =
      some ⟨List.replicate 7 none, [], [none, none, none]⟩ ∧
    (vRun intOps (fun _ => false) (fun _ => 0) (VWorld.empty Int) (memDemo.take 11)).bind (fun w => w.contents 2) =
      some (.bool [false, false, false, true]) := by decide +kernel

/-- The refutations can happen: a setting that holds a list. -/
example : ∃ w : VWorld Int, Owned w ∧ w.sets[0]? = some (some (some 0)) :=
  ⟨⟨[some (.bool [true])], [], [some (some 0)]⟩, (by
    intro v
    cases v with
    | zero => rfl
    | succ v => simp [VWorld.read]), rfl⟩

end Softlib
