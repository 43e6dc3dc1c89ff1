/-
Property C20: settings backed by files.
-/
import Verif.Config.SFileSettingModel

namespace Softlib

open Softlib.Config

theorem pushFrom_length {α : Type} (get : Nat → Got α) (k : Nat) :
    ∀ (s : Nat) (acc v : List α), pushFrom get s k acc = .val v → v.length = acc.length + k := by
  induction k with
  | zero =>
    intro s acc v h
    simp only [pushFrom, Got.val.injEq] at h
    subst h; rfl
  | succ k ih =>
    intro s acc v h
    simp only [pushFrom, Got.bind] at h
    cases hg : get s with
    | val a =>
      rw [hg] at h
      have := ih _ _ _ h
      rw [this, List.length_append]
      simp only [List.length_cons, List.length_nil]
      omega
    | invalid => rw [hg] at h; exact absurd h (by simp)
    | range => rw [hg] at h; exact absurd h (by simp)
    | softlib => rw [hg] at h; exact absurd h (by simp)

theorem pushFrom_eq {α : Type} (get : Nat → Got α) (l : List α) :
    ∀ (s : Nat) (acc : List α), (∀ (i : Nat) (a : α), l[i]? = some a → get (s + i) = .val a) →
      pushFrom get s l.length acc = .val (acc ++ l) := by
  induction l with
  | nil => intro s acc _; simp [pushFrom]
  | cons a l ih =>
    intro s acc h
    have h0 : get s = .val a := h 0 a rfl
    simp only [List.length_cons, pushFrom, h0, Got.bind]
    rw [ih (s + 1) (acc ++ [a])]
    · simp
    · intro i b hb
      have := h (i + 1) b (by simpa using hb)
      rw [show s + 1 + i = s + (i + 1) from by omega]
      exact this

theorem fill_eq {α : Type} (d : α) (n : Got Nat) (get : Nat → Got α) (l : List α)
    (hn : n = .val l.length) (h : ∀ (i : Nat) (a : α), l[i]? = some a → get i = .val a) :
    fill d n get = .val (List.replicate l.length d ++ l) := by
  subst hn
  simp only [fill, Got.bind]
  apply pushFrom_eq
  intro i a hi
  rw [Nat.zero_add]
  exact h i a hi

theorem fill_length {α : Type} (d : α) (n : Got Nat) (get : Nat → Got α) (v : List α)
    (h : fill d n get = .val v) : ∃ k, n = .val k ∧ v.length = 2 * k := by
  cases n with
  | val k =>
    refine ⟨k, rfl, ?_⟩
    simp only [fill, Got.bind] at h
    have := pushFrom_length _ _ _ _ _ h
    rw [List.length_replicate] at this
    omega
  | invalid => simp [fill, Got.bind] at h
  | range => simp [fill, Got.bind] at h
  | softlib => simp [fill, Got.bind] at h

theorem idx_some {α : Type} {l : List α} {i : Nat} {a : α} (h : l[i]? = some a) :
    idx l i = .val a := by simp only [idx, h]

theorem Got.map_val {α β : Type} {f : α → β} {x : Got α} {b : β} (h : x.map f = .val b) :
    ∃ a, x = .val a ∧ f a = b := by
  cases x with
  | val a => exact ⟨a, rfl, by simpa [Got.map] using h⟩
  | invalid => simp [Got.map] at h
  | range => simp [Got.map] at h
  | softlib => simp [Got.map] at h

theorem Got.bind_val {α β : Type} {f : α → Got β} {x : Got α} {b : β} (h : x.bind f = .val b) :
    ∃ a, x = .val a ∧ f a = .val b := by
  cases x with
  | val a => exact ⟨a, rfl, by simpa [Got.bind] using h⟩
  | invalid => simp [Got.bind] at h
  | range => simp [Got.bind] at h
  | softlib => simp [Got.bind] at h

/-- The numbers stored in a setting; `none` if it does not hold numbers. -/
inductive HoldsNumbers {R : Type} (o : RealOps R) : SData R → List R → Prop where
  | int32 (l : List Int) : HoldsNumbers o (.int32 l) (l.map o.ofInt)
  | int64 (l : List Int) : HoldsNumbers o (.int64 l) (l.map o.ofInt)
  | uint32 (l : List Nat) : HoldsNumbers o (.uint32 l) (l.map fun n : Nat => o.ofInt n)
  | uint64 (l : List Nat) : HoldsNumbers o (.uint64 l) (l.map fun n : Nat => o.ofInt n)
  | real (l : List R) : HoldsNumbers o (.real l) l

/-- C20, what `GetNumericVector` really returns: as many zeros as there are values, followed
by the stored values in order.  So it is right exactly for the empty setting.
Missing: the property as stated (no padding), which fails for every non-empty setting. -/
theorem C20_numeric_vector_partial {R : Type} (o : RealOps R) (d : SData R) (xs : List R)
    (h : HoldsNumbers o d xs) :
    ∃ v, d.getNumericVector o = .val v ∧ v = List.replicate xs.length o.zero ++ xs ∧
      (v = xs ↔ xs = []) := by
  have key : ∀ (ys : List R), (List.replicate ys.length o.zero ++ ys = ys ↔ ys = []) := by
    intro ys
    constructor
    · intro e
      have := congrArg List.length e
      rw [List.length_append, List.length_replicate] at this
      exact List.eq_nil_of_length_eq_zero (by omega)
    · rintro rfl; rfl
  cases h with
  | int32 l => exact ⟨_, rfl, by rw [List.length_map], by rw [← key, List.length_map]⟩
  | int64 l => exact ⟨_, rfl, by rw [List.length_map], by rw [← key, List.length_map]⟩
  | uint32 l => exact ⟨_, rfl, by rw [List.length_map], by rw [← key, List.length_map]⟩
  | uint64 l => exact ⟨_, rfl, by rw [List.length_map], by rw [← key, List.length_map]⟩
  | real l => exact ⟨_, rfl, rfl, by rw [← key]⟩

/-- C20: settings that hold no numbers are rejected. -/
theorem C20_numeric_vector_rejects {R : Type} (o : RealOps R) (d : SData R)
    (h : ∀ xs, ¬ HoldsNumbers o d xs) : d.getNumericVector o = .softlib := by
  cases d with
  | unspecified => rfl
  | bool b => rfl
  | string s => rfl
  | int32 l => exact absurd (.int32 l) (h _)
  | int64 l => exact absurd (.int64 l) (h _)
  | uint32 l => exact absurd (.uint32 l) (h _)
  | uint64 l => exact absurd (.uint64 l) (h _)
  | real l => exact absurd (.real l) (h _)

/-- C20: text settings are returned unchanged, all others rejected. -/
theorem C20_text_vector {R : Type} (d : SData R) :
    (∀ s, d = .string s → d.getTextVector = .val s) ∧
    ((∀ s, d ≠ .string s) → d.getTextVector = .softlib) := by
  constructor
  · rintro s rfl; rfl
  · intro h
    cases d with
    | string s => exact absurd rfl (h s)
    | _ => rfl

/-- C20, single values: the element stored at an index is what the matching getter returns,
and an index outside the vector is `out_of_range`. -/
theorem C20_elements {R : Type} (o : RealOps R) (i : Nat) :
    (∀ (l : List Bool), (SData.bool l : SData R).getBool i = (l[i]?).elim .range .val) ∧
    (∀ (l : List Int), (SData.int64 l : SData R).getInteger o i = (l[i]?).elim .range .val) ∧
    (∀ (l : List R), (SData.real l).getScalar o i = (l[i]?).elim .range .val) ∧
    (∀ (l : List Str), (SData.string l : SData R).getString i = (l[i]?).elim .range .val) := by
  refine ⟨fun l => ?_, fun l => ?_, fun l => ?_, fun l => ?_⟩ <;>
    simp only [SData.getBool, SData.getInteger, SData.getScalar, SData.getString, idx] <;>
    cases l[i]? <;> rfl

theorem wrapS_id {w : Nat} {z : Int} (hw : 1 ≤ w) (h : - 2 ^ (w - 1) ≤ z) (h2 : z < 2 ^ (w - 1)) :
    wrapS w z = z := by
  unfold wrapS
  have e : (2 : Int) ^ w = 2 * 2 ^ (w - 1) := by
    conv => lhs; rw [show w = (w - 1) + 1 from by omega]
    rw [Int.pow_succ, Int.mul_comm]
  rw [Int.emod_eq_of_lt (by omega) (by omega)]
  omega

/-- C20: 32-bit integers come back unchanged from every integer getter that can hold them. -/
theorem C20_int32_elements {R : Type} (o : RealOps R) (l : List Int) (i : Nat) (z : Int)
    (h : l[i]? = some z) (hlo : - 2 ^ 31 ≤ z) (hhi : z < 2 ^ 31) :
    (SData.int32 l : SData R).getInteger32 o i = .val z ∧
    (SData.int32 l : SData R).getInteger o i = .val z := by
  constructor
  · simp only [SData.getInteger32, SData.getInteger, idx_some h, Got.map]
    rw [wrapS_id (by decide) (by simpa using hlo) (by simpa using hhi)]
  · simp only [SData.getInteger, idx_some h]

/-- The integer stored at a place of a setting. -/
inductive StoredInt {R : Type} : SData R → Nat → Int → Prop
  | int32 {l : List Int} {i z} : l[i]? = some z → - 2 ^ 31 ≤ z → z < 2 ^ 31 → StoredInt (.int32 l) i z
  | int64 {l : List Int} {i z} : l[i]? = some z → - 2 ^ 63 ≤ z → z < 2 ^ 63 → StoredInt (.int64 l) i z
  | uint32 {l : List Nat} {i n : Nat} : l[i]? = some n → n < 2 ^ 32 → StoredInt (.uint32 l) i (n : Int)
  | uint64 {l : List Nat} {i n : Nat} : l[i]? = some n → n < 2 ^ 64 → StoredInt (.uint64 l) i (n : Int)

/-- C20: a stored integer of any type comes back unchanged from every integer getter whose
type can hold it. -/
theorem C20_integer_elements {R : Type} (o : RealOps R) (d : SData R) (i : Nat) (z : Int)
    (h : StoredInt d i z) :
    (- 2 ^ 63 ≤ z → z < 2 ^ 63 → d.getInteger o i = .val z) ∧
    (- 2 ^ 31 ≤ z → z < 2 ^ 31 → d.getInteger32 o i = .val z) ∧
    (0 ≤ z → z < 2 ^ 32 → d.getUnsigned32 o i = .val z.toNat) ∧
    (0 ≤ z → z < 2 ^ 64 → d.getUnsigned64 o i = .val z.toNat) ∧
    d.getScalar o i = .val (o.ofInt z) := by
  cases h with
  | int32 h h1 h2 =>
    simp only [SData.getInteger, SData.getInteger32, SData.getUnsigned32, SData.getUnsigned64,
      SData.getScalar, idx_some h, Got.map, wrapS, wrapU, Got.val.injEq]
    refine ⟨fun _ _ => trivial, fun _ _ => ?_, fun _ _ => ?_, fun _ _ => ?_, trivial⟩ <;> omega
  | int64 h h1 h2 =>
    simp only [SData.getInteger, SData.getInteger32, SData.getUnsigned32, SData.getUnsigned64,
      SData.getScalar, idx_some h, Got.map, wrapS, wrapU, Got.val.injEq]
    refine ⟨fun _ _ => trivial, fun _ _ => ?_, fun _ _ => ?_, fun _ _ => ?_, trivial⟩ <;> omega
  | uint32 h h1 =>
    simp only [SData.getInteger, SData.getInteger32, SData.getUnsigned32, SData.getUnsigned64,
      SData.getScalar, idx_some h, Got.map, wrapS, wrapU, Got.val.injEq]
    refine ⟨fun _ _ => trivial, fun _ _ => ?_, fun _ _ => ?_, fun _ _ => ?_, trivial⟩ <;> omega
  | uint64 h h1 =>
    simp only [SData.getInteger, SData.getInteger32, SData.getUnsigned32, SData.getUnsigned64,
      SData.getScalar, idx_some h, Got.map, wrapS, wrapU, Got.val.injEq]
    refine ⟨fun _ _ => ?_, fun _ _ => ?_, fun _ _ => ?_, fun _ _ => ?_, trivial⟩ <;> omega

example : StoredInt (.uint64 [3, 2 ^ 64 - 1] : SData Int) 1 ((2 ^ 64 - 1 : Nat) : Int) := .uint64 rfl (by omega)

/-- C20, overwriting: whatever the source, a successful overwrite leaves twice as many values
as the source has. -/
theorem C20_overwrite_doubles_partial {R : Type} (o : RealOps R) (s : Source R) (d : SData R)
    (h : overwriteValues o s = .val d) :
    ∃ n, s.num = .val n ∧ d.num = .val (2 * n) := by
  unfold overwriteValues at h
  obtain ⟨b1, _, h⟩ := Got.bind_val h
  split at h
  · obtain ⟨v, hv, rfl⟩ := Got.map_val h
    obtain ⟨k, hk, hl⟩ := fill_length _ _ _ _ hv
    exact ⟨k, hk, by simp only [SData.num, hl]⟩
  obtain ⟨b2, _, h⟩ := Got.bind_val h
  split at h
  · obtain ⟨v, hv, rfl⟩ := Got.map_val h
    obtain ⟨k, hk, hl⟩ := fill_length _ _ _ _ hv
    exact ⟨k, hk, by simp only [SData.num, hl]⟩
  obtain ⟨b3, _, h⟩ := Got.bind_val h
  split at h
  · obtain ⟨v, hv, rfl⟩ := Got.map_val h
    obtain ⟨k, hk, hl⟩ := fill_length _ _ _ _ hv
    exact ⟨k, hk, by simp only [SData.num, hl]⟩
  obtain ⟨b4, _, h⟩ := Got.bind_val h
  split at h
  · obtain ⟨v, hv, rfl⟩ := Got.map_val h
    obtain ⟨k, hk, hl⟩ := fill_length _ _ _ _ hv
    exact ⟨k, hk, by simp only [SData.num, hl]⟩
  obtain ⟨b5, _, h⟩ := Got.bind_val h
  split at h
  · obtain ⟨v, hv, rfl⟩ := Got.map_val h
    obtain ⟨k, hk, hl⟩ := fill_length _ _ _ _ hv
    exact ⟨k, hk, by simp only [SData.num, hl]⟩
  obtain ⟨b6, _, h⟩ := Got.bind_val h
  split at h
  · obtain ⟨v, hv, rfl⟩ := Got.map_val h
    obtain ⟨k, hk, hl⟩ := fill_length _ _ _ _ hv
    exact ⟨k, hk, by simp only [SData.num, hl]⟩
  · obtain ⟨v, hv, rfl⟩ := Got.map_val h
    obtain ⟨k, hk, hl⟩ := fill_length _ _ _ _ hv
    exact ⟨k, hk, by simp only [SData.num, hl]⟩

/-- C20, overwriting from a file setting of the same kind: the values follow `n` default
values (false, 0).  Missing: no padding, which fails unless there are no values. -/
theorem C20_overwrite_same_type_partial {R : Type} (o : RealOps R) :
    (∀ (l : List Bool), overwriteValues o ((SData.bool l).source o) =
      .val (.bool (List.replicate l.length false ++ l))) ∧
    (∀ (l : List Int), l ≠ [] → (∀ z ∈ l, - 2 ^ 31 ≤ z ∧ z < 2 ^ 31) →
      overwriteValues o ((SData.int32 l).source o) =
      .val (.int32 (List.replicate l.length 0 ++ l))) ∧
    (∀ (x : Int) (l : List Int), ¬ (- 2 ^ 31 ≤ x ∧ x < 2 ^ 31) →
      overwriteValues o ((SData.int64 (x :: l)).source o) =
      .val (.int64 (List.replicate (l.length + 1) 0 ++ x :: l))) := by
  refine ⟨fun l => ?_, fun l hne hb => ?_, fun x l hx => ?_⟩
  · have hf : fill false ((SData.bool l : SData R).source o).num ((SData.bool l : SData R).source o).getBool =
        .val (List.replicate l.length false ++ l) :=
      fill_eq _ _ _ _ rfl (fun i a hi => idx_some hi)
    unfold overwriteValues
    rw [hf]
    rfl
  · have hf : fill 0 ((SData.int32 l : SData R).source o).num
        ((SData.int32 l : SData R).source o).getInteger32 =
        .val (List.replicate l.length 0 ++ l) := by
      refine fill_eq _ _ _ _ rfl (fun i a hi => ?_)
      obtain ⟨h1, h2⟩ := hb a (List.mem_of_getElem? hi)
      exact (C20_int32_elements o l i a hi h1 h2).1
    obtain ⟨x, t, rfl⟩ : ∃ x t, l = x :: t := by
      cases l with
      | nil => exact absurd rfl hne
      | cons x t => exact ⟨x, t, rfl⟩
    have h32 : ((SData.int32 (x :: t) : SData R).source o).isInteger32 = .val true := by
      have ⟨h1, h2⟩ := hb x List.mem_cons_self
      have hd : decide (x ≤ 2 ^ 31 - 1 ∧ - 2 ^ 31 ≤ x) = true := decide_eq_true ⟨by omega, h1⟩
      show Got.val (decide (x ≤ 2 ^ 31 - 1 ∧ - 2 ^ 31 ≤ x)) = _
      rw [hd]
    unfold overwriteValues
    rw [hf, h32]
    rfl
  · have hf : fill 0 ((SData.int64 (x :: l) : SData R).source o).num
        ((SData.int64 (x :: l) : SData R).source o).getInteger64 =
        .val (List.replicate (l.length + 1) 0 ++ x :: l) :=
      fill_eq _ _ _ (x :: l) rfl (fun i a hi => idx_some hi)
    have h32 : ((SData.int64 (x :: l) : SData R).source o).isInteger32 = .val false := by
      have hd : decide (x ≤ 2 ^ 31 - 1 ∧ - 2 ^ 31 ≤ x) = false :=
        decide_eq_false (fun h => hx ⟨h.2, by omega⟩)
      show Got.val (decide (x ≤ 2 ^ 31 - 1 ∧ - 2 ^ 31 ≤ x)) = _
      rw [hd]
    unfold overwriteValues
    rw [hf, h32]
    rfl

/-- C20, overwriting with texts: every value becomes the first text. -/
theorem C20_overwrite_strings_repeat_first {R : Type} (o : RealOps R) (x : Str) (l : List Str) :
    overwriteValues o ((SData.string (x :: l)).source o) =
      .val (.string (List.replicate (l.length + 1) [] ++ List.replicate (l.length + 1) x)) := by
  have hf : fill [] ((SData.string (x :: l) : SData R).source o).num
      (fun _ => ((SData.string (x :: l) : SData R).source o).getString 0) =
      .val (List.replicate (List.replicate (l.length + 1) x).length [] ++ List.replicate (l.length + 1) x) := by
    refine fill_eq _ _ _ _ (by rw [List.length_replicate]; rfl) (fun i a hi => ?_)
    have := List.mem_of_getElem? hi
    rw [List.mem_replicate] at this
    rw [this.2]
    rfl
  rw [List.length_replicate] at hf
  unfold overwriteValues
  rw [hf]
  rfl

/-- C20, overwriting with real numbers whose first element fits a 32-bit integer: all values
are truncated to integers. -/
theorem C20_overwrite_truncates_reals {R : Type} (o : RealOps R) (x : R) (l : List R)
    (hlo : - 2 ^ 31 ≤ o.trunc x) (hhi : o.trunc x < 2 ^ 31) :
    overwriteValues o ((SData.real (x :: l)).source o) =
      .val (.int32 (List.replicate (l.length + 1) 0 ++ (x :: l).map (fun y => wrapS 32 (o.trunc y)))) := by
  have hf : fill 0 ((SData.real (x :: l) : SData R).source o).num
      ((SData.real (x :: l) : SData R).source o).getInteger32 =
      .val (List.replicate ((x :: l).map (fun y => wrapS 32 (o.trunc y))).length 0 ++
        (x :: l).map (fun y => wrapS 32 (o.trunc y))) := by
    refine fill_eq _ _ _ _ (by rw [List.length_map]; rfl) (fun i a hi => ?_)
    rw [List.getElem?_map] at hi
    obtain ⟨y, hy, rfl⟩ := Option.map_eq_some_iff.1 hi
    show ((idx (x :: l) i).map o.trunc).map (wrapS 32) = _
    rw [idx_some hy]
    rfl
  rw [List.length_map, List.length_cons] at hf
  have h32 : ((SData.real (x :: l) : SData R).source o).isInteger32 = .val true := by
    have hd : decide (o.trunc x ≤ 2 ^ 31 - 1 ∧ - 2 ^ 31 ≤ o.trunc x) = true :=
      decide_eq_true ⟨by omega, hlo⟩
    show Got.val (decide (o.trunc x ≤ 2 ^ 31 - 1 ∧ - 2 ^ 31 ≤ o.trunc x)) = _
    rw [hd]
  unfold overwriteValues
  rw [hf, h32]
  rfl

/-- C20, copying: integer and boolean settings are copied value for value but lose their
name; real and text settings cannot be copied.
Missing: copies of real and text settings, and the name. -/
theorem C20_copy_partial {R : Type} (d : SData R) :
    (∀ n d', d.copy = .val (n, d') → d' = d ∧ n = []) ∧
    ((∃ x, d.copy = .val x) ↔ ∃ l, d = .bool l ∨ (∃ z : List Int, d = .int32 z ∨ d = .int64 z) ∨
      ∃ u : List Nat, d = .uint32 u ∨ d = .uint64 u) ∧
    ((∃ r, d = .real r) ∨ (∃ s, d = .string s) → d.copy = .softlib) := by
  cases d <;> simp [SData.copy]
  all_goals
    intro n d' h1 h2
    exact ⟨h2.symm, h1.symm⟩

def intOps : RealOps Int := ⟨0, id, id, fun z => decide (0 ≤ z)⟩

/-- C20 as stated is refuted: a setting holding 7 yields the vector (0, 7), and overwriting a
setting with the truth value true stores (false, true). -/
theorem C20_refuted :
    (SData.real [7] : SData Int).getNumericVector intOps = .val [0, 7] ∧
    overwriteValues intOps ((SData.bool [true]).source intOps) = .val (.bool [false, true]) :=
  ⟨rfl, rfl⟩

/-- The same happens when a file setting is overwritten by a script setting. -/
theorem C20_refuted_script :
    overwriteValues intOps (scriptSource (fun _ => false) (fun _ => 0) ["yes".toList]) =
      .val (.bool [false, true]) := by decide +kernel

/-- Numbers as tenths: an example with rounding. -/
def tenths : RealOps Int := ⟨0, fun z => 10 * z, fun z => Int.tdiv z 10, fun z => decide (0 ≤ z)⟩

/-- 2.5 and 3.7 become 2 and 3 behind two zeros. -/
example : overwriteValues tenths ((SData.real [25, 37]).source tenths) = .val (.int32 [0, 0, 2, 3]) := by
  decide +kernel
example : (SData.real [25, 37] : SData Int).getNumericVector tenths = .val [0, 0, 25, 37] := rfl
example : (SData.real [25, 37] : SData Int).copy = .softlib := rfl

/-- What is asked of a setting of another type is refused: a boolean or a text of numbers, a number
of texts, booleans or nothing. -/
theorem C20_other_type {R : Type} (o : RealOps R) (d : SData R) (i : Nat) :
    ((∀ l, d ≠ .bool l) → d.getBool i = .softlib) ∧ ((∀ l, d ≠ .string l) → d.getString i = .softlib) ∧
    ((∀ xs, ¬ HoldsNumbers o d xs) → d.getInteger o i = .softlib ∧ d.getInteger32 o i = .softlib ∧
      d.getUnsigned32 o i = .softlib ∧ d.getUnsigned64 o i = .softlib ∧ d.getScalar o i = .softlib) := by
  refine ⟨fun h => ?_, fun h => ?_, fun h => ?_⟩
  · cases d with
    | bool b => exact absurd rfl (h b)
    | _ => rfl
  · cases d with
    | string s => exact absurd rfl (h s)
    | _ => rfl
  · cases d with
    | int32 l => exact absurd (.int32 l) (h _)
    | int64 l => exact absurd (.int64 l) (h _)
    | uint32 l => exact absurd (.uint32 l) (h _)
    | uint64 l => exact absurd (.uint64 l) (h _)
    | real l => exact absurd (.real l) (h _)
    | _ => exact ⟨rfl, rfl, rfl, rfl, rfl⟩

example : (SData.real [7] : SData Int).getString 0 = .softlib :=
  (C20_other_type intOps _ 0).2.1 (fun _ h => by cases h)

end Softlib
