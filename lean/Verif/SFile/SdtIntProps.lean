/-
C132: integers in SDT files.
-/
import Verif.SFile.SdtIntModel
import Verif.SFile.SdtTextLemmas
import Verif.General.RoundEval
import Mathlib.Tactic.Linarith
import Mathlib.Tactic.NormNum
import Mathlib.Tactic.Ring

namespace Softlib
open Softlib.Config Softlib.SFile Softlib.General

/-- A reader of `double` that rounds correctly: the text of an integer is read as the nearest `double`. -/
def ReadsInts (c : Codec ℚ) : Prop := ∀ z : ℤ, TextReadsAs intOut c z (flBits 52 z)

theorem load_all_as {α β : Type} (c : Codec α) (c' : Codec β) (g : α → β) (h : ∀ x, TextReadsAs c.fmt c' x (g x)) (vs : List (Var α))
    (st : Store β) (hs : ∀ v ∈ vs, Storable c v) :
    loadLines c' (lines (writeAll c vs)) st = .ok ((vs.map (mapVar g)).foldl addVar st) :=
  load_all_in c c' g vs st (fun v hv => shaped_of_storable (fun x hx => ⟨hx.1, h x⟩) (hs v hv))

/-- C132: a file of integers opens, and holds under each name the first array written under it, each integer replaced by the nearest
double. -/
theorem C132_load (c : Codec ℚ) (hc : ReadsInts c) (vs : List (Var ℤ)) (h : ∀ v ∈ vs, Storable integerCodec v) :
    ∃ st, openRead c (writeAll integerCodec vs) = .ok st ∧
      ∀ n, getDoubles st n = (vs.findSome? (matrixOf n)).map
        (fun m => ⟨m.nrows, m.ncols, m.vals.map (List.map fun z : ℤ => flBits 52 (z : ℚ))⟩) := by
  refine ⟨_, load_all_as integerCodec c (fun z : ℤ => flBits 52 (z : ℚ)) hc vs ⟨[], []⟩ h, fun n => ?_⟩
  have := (lookup_fold n (vs.map (mapVar fun z : ℤ => flBits 52 (z : ℚ))) ⟨[], []⟩).1
  rw [findSome_mapVar] at this
  exact this

/-! ### one number -/

/-- The nearest double is an integer. -/
theorem flBits_isInt (z : ℤ) : ∃ w : ℤ, flBits 52 (z : ℚ) = w := by
  by_cases h : |z| ≤ 2 ^ 53
  · refine ⟨z, ?_⟩
    have := flBits_exact 52 (e := 0) (m := z) h
    simpa using this
  · have hx : (0 : ℚ) < |(z : ℚ)| := by
      have : (2 ^ 53 : ℤ) < |z| := not_le.mp h
      have : ((2 ^ 53 : ℤ) : ℚ) < |(z : ℚ)| := by exact_mod_cast this
      push_cast at this
      linarith [show (0 : ℚ) < 2 ^ 53 by norm_num]
    have hl : 0 ≤ lastExp 52 (z : ℚ) := by
      unfold lastExp
      have : (53 : ℤ) ≤ Int.log 2 |(z : ℚ)| := by
        rw [← Int.zpow_le_iff_le_log (by norm_num) hx]
        have : (2 ^ 53 : ℤ) < |z| := not_le.mp h
        have : ((2 ^ 53 : ℤ) : ℚ) < |(z : ℚ)| := by exact_mod_cast this
        push_cast at this
        have e : (((2 : ℕ) : ℚ)) ^ (53 : ℤ) = 2 ^ 53 := by norm_num
        rw [e]; exact this.le
      push_cast
      linarith
    obtain ⟨k, hk⟩ := Int.eq_ofNat_of_zero_le hl
    refine ⟨rne ((z : ℚ) / 2 ^ lastExp 52 (z : ℚ)) * 2 ^ k, ?_⟩
    rw [flBits, hk]
    push_cast
    norm_cast

/-- The nearest double, as an integer. -/
def nearest (z : ℤ) : ℤ := truncQ (flBits 52 (z : ℚ))

theorem truncQ_int (w : ℤ) : truncQ (w : ℚ) = w := by
  unfold truncQ; split_ifs <;> simp

theorem nearest_eq (z : ℤ) : (nearest z : ℚ) = flBits 52 (z : ℚ) := by
  obtain ⟨w, hw⟩ := flBits_isInt z
  rw [nearest, hw, truncQ_int]

theorem nearest_mono {x y : ℤ} (h : x ≤ y) : nearest x ≤ nearest y := by
  have := flBits_mono 52 (x : ℚ) (y : ℚ) (by exact_mod_cast h)
  rw [← nearest_eq, ← nearest_eq] at this
  exact_mod_cast this

theorem nearest_small {z : ℤ} (h : |z| ≤ 2 ^ 53) : nearest z = z := by
  have := flBits_exact 52 (e := 0) (m := z) h
  have e : flBits 52 (z : ℚ) = z := by simpa using this
  rw [nearest, e, truncQ_int]

theorem nearest_val {z w : ℤ} (h : flQ 52 (z : ℚ) = w) : nearest z = w := by
  rw [nearest, flQ_eq, h, truncQ_int]

theorem nearest_top : nearest (2 ^ 63 - 512) = 2 ^ 63 ∧ nearest (2 ^ 63 - 513) = 2 ^ 63 - 1024 ∧
    nearest (2 ^ 64 - 1024) = 2 ^ 64 ∧ nearest (2 ^ 64 - 1025) = 2 ^ 64 - 2048 ∧ nearest (-2 ^ 63) = -2 ^ 63 := by
  refine ⟨nearest_val ?_, nearest_val ?_, nearest_val ?_, nearest_val ?_, nearest_val ?_⟩ <;> decide +kernel

/-- The range of a type, stated apart from the model. -/
def InRange : SInt → ℤ → Prop
  | .i32, z => -2147483648 ≤ z ∧ z ≤ 2147483647
  | .u32, z => 0 ≤ z ∧ z ≤ 4294967295
  | .i64, z => -9223372036854775808 ≤ z ∧ z ≤ 9223372036854775807
  | .u64, z => 0 ≤ z ∧ z ≤ 18446744073709551615

theorem inRange_iff (t : SInt) (z : ℤ) : InRange t z ↔ t.lo ≤ z ∧ z ≤ t.hi := by
  cases t <;> simp only [InRange, SInt.lo, SInt.hi] <;> norm_num

/-- C132: a stored double is read exactly when the number without its fraction fits the type; otherwise the behaviour is undefined. So an
integer outside the range of the type it is read as is never read as another one. -/
theorem C132_fits (t : SInt) (x : ℚ) (z : ℤ) :
    (t.cast x = some z ↔ truncQ x = z ∧ InRange t z) ∧ (t.cast x = none ↔ ¬ InRange t (truncQ x)) ∧
      (|z| ≤ 2 ^ 53 → ¬ InRange t z → t.cast (flBits 52 (z : ℚ)) = none) := by
  have key : ∀ x, t.cast x = none ↔ ¬ InRange t (truncQ x) := by
    intro x
    rw [inRange_iff, SInt.cast]
    split_ifs with h <;> simp [h]
  refine ⟨?_, key x, fun hz h => (key _).mpr ?_⟩
  · rw [inRange_iff, SInt.cast]
    split_ifs with h
    · constructor
      · intro e
        obtain rfl := Option.some.inj e
        exact ⟨rfl, h⟩
      · rintro ⟨rfl, -⟩
        rfl
    · constructor
      · intro e
        cases e
      · rintro ⟨rfl, h'⟩
        exact absurd h' h
  · rwa [show truncQ (flBits 52 (z : ℚ)) = z from nearest_small hz]

example : SInt.i32.cast (2 ^ 31) = none ∧ SInt.i32.cast (-2 ^ 31) = some (-2 ^ 31) ∧ SInt.u32.cast (2 ^ 32 - 1) = some (2 ^ 32 - 1) := by
  decide +kernel

/-- C132: a name that is not in the file is reported by an exception, as an array and as a list. -/
theorem C132_missing (c : Codec ℚ) (hc : ReadsInts c) (t : SInt) (vs : List (Var ℤ)) (h : ∀ v ∈ vs, Storable integerCodec v) (n : Str)
    (hn : ∀ v ∈ vs, matrixOf n v = none) :
    ∃ st, openRead c (writeAll integerCodec vs) = .ok st ∧ sdtInt2D t st n = .exception ∧ sdtInt1D t st n = .exception := by
  obtain ⟨st, h1, h2⟩ := C132_load c hc vs h
  have e : lookup st.mats n = none := by
    have := h2 n
    rw [List.findSome?_eq_none_iff.mpr hn] at this
    exact this
  exact ⟨st, h1, by rw [sdtInt2D, e], by rw [sdtInt1D, e]⟩

/-- C132: an integer of 32 bits that is written and read comes back unchanged. -/
theorem C132_value_32 (t : SInt) (ht : t = .i32 ∨ t = .u32) (z : ℤ) (h : InRange t z) : t.cast (flBits 52 (z : ℚ)) = some z := by
  have hz : |z| ≤ 2 ^ 53 := by
    rw [abs_le]
    rcases ht with rfl | rfl <;> simp only [InRange, SInt.lo, SInt.hi] at h <;> constructor <;> omega
  have e : truncQ (flBits 52 (z : ℚ)) = z := nearest_small hz
  rw [SInt.cast, e]
  exact if_pos ((inRange_iff t z).mp h)

/-- C132: an integer of 64 bits comes back as the nearest double; the largest 512 signed ones, and the largest 1024 unsigned ones, lead
to undefined behaviour. -/
theorem C132_value_64 (z : ℤ) :
    (InRange .i64 z → SInt.i64.cast (flBits 52 (z : ℚ)) = if 2 ^ 63 - 512 ≤ z then none else some (nearest z)) ∧
    (InRange .u64 z → SInt.u64.cast (flBits 52 (z : ℚ)) = if 2 ^ 64 - 1024 ≤ z then none else some (nearest z)) := by
  obtain ⟨t1, t2, t3, t4, t5⟩ := nearest_top
  have e : truncQ (flBits 52 (z : ℚ)) = nearest z := rfl
  constructor
  · intro h
    obtain ⟨hl, hh⟩ := (inRange_iff _ z).mp h
    simp only [SInt.lo, SInt.hi] at hl hh
    rw [SInt.cast, e]
    simp only [SInt.lo, SInt.hi]
    by_cases h2 : 2 ^ 63 - 512 ≤ z
    · rw [if_pos h2]
      have := nearest_mono h2
      exact if_neg (fun h1 => by omega)
    · rw [if_neg h2]
      have b1 := nearest_mono (show z ≤ 2 ^ 63 - 513 by omega)
      have b2 := nearest_mono hl
      exact if_pos ⟨by omega, by omega⟩
  · intro h
    obtain ⟨hl, hh⟩ := (inRange_iff _ z).mp h
    simp only [SInt.lo, SInt.hi] at hl hh
    have z0 : nearest 0 = 0 := nearest_small (by norm_num)
    rw [SInt.cast, e]
    simp only [SInt.lo, SInt.hi]
    by_cases h2 : 2 ^ 64 - 1024 ≤ z
    · rw [if_pos h2]
      have := nearest_mono h2
      exact if_neg (fun h1 => by omega)
    · rw [if_neg h2]
      have b1 := nearest_mono (show z ≤ 2 ^ 64 - 1025 by omega)
      have b2 := nearest_mono hl
      exact if_pos ⟨by omega, by omega⟩

/-- C132: an integer comes back unchanged if and only if it is a double. -/
theorem C132_value_iff (t : SInt) (z : ℤ) (h : InRange t z) : t.cast (flBits 52 (z : ℚ)) = some z ↔ flBits 52 (z : ℚ) = z := by
  constructor
  · intro hc
    rw [SInt.cast] at hc
    split_ifs at hc
    have : nearest z = z := Option.some.inj hc
    rw [← nearest_eq, this]
  · intro he
    have e : truncQ (flBits 52 (z : ℚ)) = z := by rw [he, truncQ_int]
    rw [SInt.cast, e]
    exact if_pos ((inRange_iff t z).mp h)

/-- C132, refuted: a negative number, read as an unsigned one, is undefined behaviour. -/
theorem C132_refuted_negative (t : SInt) (ht : t = .u32 ∨ t = .u64) (z : ℤ) (h : z < 0) : t.cast (flBits 52 (z : ℚ)) = none := by
  have b := nearest_mono (show z ≤ -1 by omega)
  have e1 : nearest (-1) = -1 := nearest_small (by norm_num)
  have e : truncQ (flBits 52 (z : ℚ)) = nearest z := rfl
  rw [SInt.cast, e, if_neg]
  rintro ⟨h1, _⟩
  rcases ht with rfl | rfl <;> simp only [SInt.lo] at h1 <;> omega

/-! ### arrays -/

theorem mapM_cast_iff {α β : Type} (f : α → Option β) (l : List α) (w : List β) :
    l.mapM f = some w ↔ l.map f = w.map some := by
  induction l generalizing w with
  | nil =>
    cases w with
    | nil => exact ⟨fun _ => rfl, fun _ => rfl⟩
    | cons y w => exact ⟨fun h => (by cases h), fun h => (by cases h)⟩
  | cons x l ih =>
    rw [List.mapM_cons]
    cases hx : f x with
    | none =>
      constructor
      · intro h; simp at h
      · intro h
        cases w with
        | nil => simp at h
        | cons y w => simp [hx] at h
    | some y =>
      cases hl : l.mapM f with
      | none =>
        constructor
        · intro h; simp at h
        · intro h
          cases w with
          | nil => simp at h
          | cons y' w =>
            simp only [List.map_cons, List.cons.injEq] at h
            rw [(ih w).mpr h.2] at hl
            simp at hl
      | some r =>
        have := (ih r).mp hl
        constructor
        · intro h
          simp at h
          subst h
          simp [hx, this]
        · intro h
          cases w with
          | nil => simp at h
          | cons y' w =>
            simp only [List.map_cons, List.cons.injEq, hx, Option.some.injEq] at h
            have h2 := (ih w).mpr h.2
            rw [hl] at h2
            simp only [Option.some.injEq] at h2
            rw [h.1, h2]
            rfl

theorem mapM_none_iff {α β : Type} (f : α → Option β) (l : List α) : l.mapM f = none ↔ ∃ x ∈ l, f x = none := by
  induction l with
  | nil => simp
  | cons x l ih =>
    rw [List.mapM_cons]
    cases hx : f x with
    | none => simp [hx]
    | some y =>
      cases hl : l.mapM f with
      | none =>
        obtain ⟨z, hz, hz'⟩ := ih.mp hl
        simp only [Option.bind_eq_bind, Option.bind_some, Option.bind_none, true_iff]
        exact ⟨z, by simp [hz], hz'⟩
      | some r =>
        have : ¬ ∃ z ∈ l, f z = none := fun h => by rw [ih.mpr h] at hl; simp at hl
        simp only [Option.bind_eq_bind, Option.bind_some, Option.pure_def, reduceCtorEq, false_iff]
        rintro ⟨z, hz, hz'⟩
        rcases List.mem_cons.mp hz with rfl | hz
        · rw [hx] at hz'; simp at hz'
        · exact this ⟨z, hz, hz'⟩

/-- The file with the array `rows` under the name `n`, among other variables, the earlier ones under other names. -/
structure IntFile (pre post : List (Var ℤ)) (n : Str) (k : ℕ) (rows : List (List ℤ)) : Prop where
  storable : ∀ v ∈ pre ++ .mat n k rows :: post, Storable integerCodec v
  first : ∀ v ∈ pre, matrixOf n v = none

theorem intFile_load (c : Codec ℚ) (hc : ReadsInts c) {pre post : List (Var ℤ)} {n : Str} {k : ℕ} {rows : List (List ℤ)}
    (h : IntFile pre post n k rows) :
    ∃ st, openRead c (writeAll integerCodec (pre ++ .mat n k rows :: post)) = .ok st ∧
      lookup st.mats n = some ⟨rows.length, k, rows.map (List.map fun z : ℤ => flBits 52 (z : ℚ))⟩ := by
  obtain ⟨st, hst, hl⟩ := C132_load c hc _ h.storable
  refine ⟨st, hst, ?_⟩
  have := hl n
  rw [List.findSome?_append, List.findSome?_eq_none_iff.2 h.first] at this
  simpa [matrixOf, getDoubles] using this

/-- C132: an array of integers of some type, written and read by the functions of this type: the behaviour is undefined if one of the
integers leads to undefined behaviour; the array is unchanged if and only if all its integers are doubles. -/
theorem C132_arrays (c : Codec ℚ) (hc : ReadsInts c) (t : SInt) {pre post : List (Var ℤ)} {n : Str} {k : ℕ} {rows : List (List ℤ)}
    (h : IntFile pre post n k rows) (hr : ∀ r ∈ rows, ∀ z ∈ r, InRange t z) :
    ∃ st, openRead c (writeAll integerCodec (pre ++ .mat n k rows :: post)) = .ok st ∧
      (sdtInt2D t st n = .ub ↔ ∃ r ∈ rows, ∃ z ∈ r, t.cast (flBits 52 (z : ℚ)) = none) ∧
      (sdtInt2D t st n = .ok rows ↔ ∀ r ∈ rows, ∀ z ∈ r, flBits 52 (z : ℚ) = z) ∧ sdtInt2D t st n ≠ .exception := by
  obtain ⟨st, hst, hl⟩ := intFile_load c hc h
  refine ⟨st, hst, ?_, ?_, ?_⟩
  · rw [sdtInt2D, hl]
    simp only
    have key : (rows.map (List.map fun z : ℤ => flBits 52 (z : ℚ))).mapM (fun r => r.mapM t.cast) = none ↔
        ∃ r ∈ rows, ∃ z ∈ r, t.cast (flBits 52 (z : ℚ)) = none := by
      rw [mapM_none_iff]
      simp only [List.mem_map, exists_exists_and_eq_and, mapM_none_iff]
    rw [← key]
    cases (rows.map (List.map fun z : ℤ => flBits 52 (z : ℚ))).mapM (fun r => r.mapM t.cast) <;> simp
  · rw [sdtInt2D, hl]
    simp only
    have key : (rows.map (List.map fun z : ℤ => flBits 52 (z : ℚ))).mapM (fun r => r.mapM t.cast) = some rows ↔
        ∀ r ∈ rows, ∀ z ∈ r, flBits 52 (z : ℚ) = z := by
      rw [mapM_cast_iff, List.map_map, List.map_inj_left]
      refine forall₂_congr fun r hr' => ?_
      rw [Function.comp, mapM_cast_iff, List.map_map, List.map_inj_left]
      refine forall₂_congr fun z hz => ?_
      exact C132_value_iff t z (hr r hr' z hz)
    rw [← key]
    cases (rows.map (List.map fun z : ℤ => flBits 52 (z : ℚ))).mapM (fun r => r.mapM t.cast) <;> simp
  · rw [sdtInt2D, hl]
    simp only
    cases (rows.map (List.map fun z : ℤ => flBits 52 (z : ℚ))).mapM (fun r => r.mapM t.cast) <;> simp

theorem dbl_of_small {z : ℤ} (h : |z| ≤ 2 ^ 53) : flBits 52 (z : ℚ) = z := by
  rw [← nearest_eq, nearest_small h]

/-- C132: arrays of integers up to `2^53` come back unchanged; these are all arrays of 32-bit integers.
Missing: larger integers, of which some are changed and some lead to undefined behaviour. -/
theorem C132_arrays_partial (c : Codec ℚ) (hc : ReadsInts c) (t : SInt) {pre post : List (Var ℤ)} {n : Str} {k : ℕ}
    {rows : List (List ℤ)} (h : IntFile pre post n k rows) (hr : ∀ r ∈ rows, ∀ z ∈ r, InRange t z)
    (hs : t = .i32 ∨ t = .u32 ∨ ∀ r ∈ rows, ∀ z ∈ r, |z| ≤ 2 ^ 53) :
    ∃ st, openRead c (writeAll integerCodec (pre ++ .mat n k rows :: post)) = .ok st ∧ sdtInt2D t st n = .ok rows := by
  obtain ⟨st, h1, -, h2, -⟩ := C132_arrays c hc t h hr
  refine ⟨st, h1, h2.mpr fun r hr' z hz => ?_⟩
  have hz' := hr r hr' z hz
  rcases hs with rfl | rfl | hs
  · exact (C132_value_iff _ z hz').mp (C132_value_32 _ (.inl rfl) z hz')
  · exact (C132_value_iff _ z hz').mp (C132_value_32 _ (.inr rfl) z hz')
  · exact dbl_of_small (hs r hr' z hz)

/-- C132: the same for lists, which are written as one row. -/
theorem C132_lists (c : Codec ℚ) (hc : ReadsInts c) (t : SInt) {pre post : List (Var ℤ)} {n : Str} {l : List ℤ}
    (h : IntFile pre post n l.length [l]) (hr : ∀ z ∈ l, InRange t z) :
    ∃ st, openRead c (writeAll integerCodec (pre ++ .mat n l.length [l] :: post)) = .ok st ∧
      (sdtInt1D t st n = .ub ↔ ∃ z ∈ l, t.cast (flBits 52 (z : ℚ)) = none) ∧
      (sdtInt1D t st n = .ok l ↔ ∀ z ∈ l, flBits 52 (z : ℚ) = z) ∧ sdtInt1D t st n ≠ .exception := by
  obtain ⟨st, hst, hl⟩ := intFile_load c hc h
  have e : sdtInt1D t st n = (match (l.map fun z : ℤ => flBits 52 (z : ℚ)).mapM t.cast with | none => .ub | some l => .ok l) := by
    rw [sdtInt1D, hl]
    simp only [length1D, List.length_cons, List.length_nil, List.map_cons, List.map_nil, List.flatten_cons, List.flatten_nil,
      List.append_nil, List.length_map, le_refl, if_true, Nat.zero_add]
    rw [List.take_of_length_le (by rw [List.length_map])]
    cases (l.map fun z : ℤ => flBits 52 (z : ℚ)).mapM t.cast <;> rfl
  refine ⟨st, hst, ?_⟩
  rw [e]
  refine ⟨?_, ?_, ?_⟩
  · have key : (l.map fun z : ℤ => flBits 52 (z : ℚ)).mapM t.cast = none ↔ ∃ z ∈ l, t.cast (flBits 52 (z : ℚ)) = none := by
      rw [mapM_none_iff]
      simp only [List.mem_map, exists_exists_and_eq_and]
    rw [← key]
    cases (l.map fun z : ℤ => flBits 52 (z : ℚ)).mapM t.cast <;> simp
  · have key : (l.map fun z : ℤ => flBits 52 (z : ℚ)).mapM t.cast = some l ↔ ∀ z ∈ l, flBits 52 (z : ℚ) = z := by
      rw [mapM_cast_iff, List.map_map, List.map_inj_left]
      exact forall₂_congr fun z hz => C132_value_iff t z (hr z hz)
    rw [← key]
    cases (l.map fun z : ℤ => flBits 52 (z : ℚ)).mapM t.cast <;> simp
  · cases (l.map fun z : ℤ => flBits 52 (z : ℚ)).mapM t.cast <;> simp

/-- C132, refuted: an array with one column and several rows cannot be read as a list; one with several columns is read as a list of its
first elements, as many as it has rows. -/
theorem C132_refuted_shapes (c : Codec ℚ) (hc : ReadsInts c) (t : SInt) {pre post : List (Var ℤ)} {n : Str} {k : ℕ}
    {rows : List (List ℤ)} (h : IntFile pre post n k rows) (hr : ∀ r ∈ rows, ∀ z ∈ r, InRange t z ∧ |z| ≤ 2 ^ 53)
    (h2 : 2 ≤ rows.length) :
    ∃ st, openRead c (writeAll integerCodec (pre ++ .mat n k rows :: post)) = .ok st ∧
      (k = 1 → sdtInt1D t st n = .exception) ∧
      (2 ≤ k → sdtInt1D t st n = .ok (rows.flatten.take rows.length)) ∧
      (k = 0 → sdtInt1D t st n = .ub) := by
  obtain ⟨st, hst, hl⟩ := intFile_load c hc h
  have hlen : ∀ r ∈ rows, r.length = k := by
    have := h.storable (.mat n k rows) (by simp)
    cases this with
    | mat _ _ _ _ _ _ _ hlen _ => exact hlen
  have hflat : ∀ rows : List (List ℤ), (∀ r ∈ rows, r.length = k) →
      (rows.map (List.map fun z : ℤ => flBits 52 (z : ℚ))).flatten.length = rows.length * k := by
    intro rows
    induction rows with
    | nil => intro _; simp
    | cons r rows ih =>
      intro hh
      rw [List.map_cons, List.flatten_cons, List.length_append, ih (fun r hr => hh r (by simp [hr])), List.length_map, hh r (by simp),
        List.length_cons]
      ring
  have hf := hflat rows hlen
  refine ⟨st, hst, ?_, ?_, ?_⟩
  · rintro rfl
    rw [sdtInt1D, hl]
    simp only [length1D]
    rw [if_neg (by omega), if_neg (by simp)]
  · intro hk
    rw [sdtInt1D, hl]
    simp only [length1D]
    rw [if_neg (by omega), if_pos (by omega)]
    simp only
    rw [hf, if_pos (Nat.le_mul_of_pos_right _ (by omega)), ← List.map_flatten, ← List.map_take]
    have key : ((rows.flatten.take rows.length).map fun z : ℤ => flBits 52 (z : ℚ)).mapM t.cast =
        some (rows.flatten.take rows.length) := by
      rw [mapM_cast_iff, List.map_map, List.map_inj_left]
      intro z hz
      obtain ⟨r, hr1, hr2⟩ := List.mem_flatten.mp (List.mem_of_mem_take hz)
      exact (C132_value_iff t z (hr r hr1 z hr2).1).mpr (dbl_of_small (hr r hr1 z hr2).2)
    rw [key]
  · rintro rfl
    rw [sdtInt1D, hl]
    simp only [length1D]
    rw [if_neg (by omega), if_pos (by omega)]
    simp only
    rw [hf, if_neg (by omega)]

/-- A reader that rounds correctly. -/
def dblCodec : Codec ℚ where
  fmt := fun _ => []
  read := fun s => (integerCodec.read s).map (fun p => (flBits 52 (p.1 : ℚ), p.2))

theorem dblCodec_reads : ReadsInts dblCodec := by
  intro z ws rest h1 h2
  have := (C22_integers_exact z).2 ws rest h1 h2
  show (integerCodec.read (ws ++ integerCodec.fmt z ++ rest)).map _ = _
  rw [this]
  rfl

theorem nameOk_n : NameOk ['n'] := ⟨by simp, by decide⟩

theorem intFile_list (l : List ℤ) (h : l.length < 2 ^ 64) : IntFile [] [] ['n'] l.length [l] := by
  refine ⟨?_, by simp⟩
  intro v hv
  simp only [List.nil_append, List.mem_cons, List.not_mem_nil, or_false] at hv
  subst hv
  exact .mat _ _ _ nameOk_n (by simp) (by simp) h (by simp) (fun r _ x _ => C22_integers_exact x)

/-- C132 as stated is refuted: with every reader that rounds correctly, `2^53 + 1` comes back as `2^53`, and `INT64_MAX` and
`UINT64_MAX` lead to undefined behaviour. -/
theorem C132_refuted (c : Codec ℚ) (hc : ReadsInts c) :
    (∃ st, openRead c (writeAll integerCodec [.mat ['n'] 1 [[2 ^ 53 + 1]]]) = .ok st ∧
      sdtInt2D .i64 st ['n'] = .ok [[2 ^ 53]] ∧ sdtInt1D .u64 st ['n'] = .ok [2 ^ 53]) ∧
    (∃ st, openRead c (writeAll integerCodec [.mat ['n'] 1 [[2 ^ 63 - 1]]]) = .ok st ∧ sdtInt2D .i64 st ['n'] = .ub) ∧
    (∃ st, openRead c (writeAll integerCodec [.mat ['n'] 1 [[2 ^ 64 - 1]]]) = .ok st ∧ sdtInt2D .u64 st ['n'] = .ub) := by
  have f := fun z : ℤ => intFile_load c hc (intFile_list [z] (by simp))
  have c1 : ∀ (t : SInt), 2 ^ 53 ≤ t.hi ∧ t.lo ≤ 0 → t.cast (flBits 52 ((2 ^ 53 + 1 : ℤ) : ℚ)) = some (2 ^ 53) := by
    intro t ht
    have e : truncQ (flBits 52 ((2 ^ 53 + 1 : ℤ) : ℚ)) = 2 ^ 53 := nearest_val (by decide +kernel)
    rw [SInt.cast, e, if_pos ⟨by omega, ht.1⟩]
  refine ⟨?_, ?_, ?_⟩
  · obtain ⟨st, h1, h2⟩ := f (2 ^ 53 + 1)
    refine ⟨st, h1, ?_, ?_⟩
    · rw [sdtInt2D, h2]
      simp only [List.map_cons, List.map_nil, List.mapM_cons, List.mapM_nil, c1 .i64 (by decide)]
      rfl
    · rw [sdtInt1D, h2]
      simp only [length1D, List.length_cons, List.length_nil, List.map_cons, List.map_nil, List.flatten_cons, List.flatten_nil,
        List.append_nil]
      simp only [Nat.zero_add, if_true, le_refl, List.take_succ_cons, List.take_zero, List.mapM_cons, List.mapM_nil,
        c1 .u64 (by decide)]
      rfl
  · obtain ⟨st, h1, h2⟩ := f (2 ^ 63 - 1)
    refine ⟨st, h1, ?_⟩
    have e := (C132_value_64 (2 ^ 63 - 1)).1 ⟨by decide, by decide⟩
    rw [if_pos (by norm_num)] at e
    rw [sdtInt2D, h2]
    simp only [List.map_cons, List.map_nil, List.mapM_cons, List.mapM_nil, e]
    rfl
  · obtain ⟨st, h1, h2⟩ := f (2 ^ 64 - 1)
    refine ⟨st, h1, ?_⟩
    have e := (C132_value_64 (2 ^ 64 - 1)).2 ⟨by decide, by decide⟩
    rw [if_pos (by norm_num)] at e
    rw [sdtInt2D, h2]
    simp only [List.map_cons, List.map_nil, List.mapM_cons, List.mapM_nil, e]
    rfl

/-- The hypotheses hold: a list of three integers, with a reader that rounds correctly. -/
example : ∃ st, openRead dblCodec (writeAll integerCodec [.mat ['n'] 3 [[-7, 0, 2 ^ 40]]]) = .ok st ∧
    sdtInt1D .i64 st ['n'] = .ok [-7, 0, 2 ^ 40] := by
  obtain ⟨st, h1, -, h2, -⟩ := C132_lists dblCodec dblCodec_reads .i64 (intFile_list [-7, 0, 2 ^ 40] (by simp))
    (by intro z hz; simp at hz; rcases hz with rfl | rfl | rfl <;> exact ⟨by decide, by decide⟩)
  refine ⟨st, h1, h2.mpr ?_⟩
  intro z hz
  simp at hz
  rcases hz with rfl | rfl | rfl <;> exact dbl_of_small (by norm_num)

end Softlib
