/-
Property C20, overwriting a file-backed setting: the result for every source.
-/
import Verif.Config.SFileSettingProps
import Verif.Config.SettingProps

namespace Softlib

open Softlib.Config

theorem wrapS32_bmod (z : Int) : wrapS 32 z = Int.bmod z (2 ^ 32) := by
  simp only [wrapS, Int.bmod_def]
  split <;> omega

theorem wrapS64_bmod (z : Int) : wrapS 64 z = Int.bmod z (2 ^ 64) := by
  simp only [wrapS, Int.bmod_def]
  split <;> omega

/-- The numbers of a setting as 64-bit integers: what `GetInteger` sees. -/
inductive AsIntegers {R : Type} (o : RealOps R) : SData R → List Int → Prop where
  | int32 (l : List Int) : AsIntegers o (.int32 l) l
  | int64 (l : List Int) : AsIntegers o (.int64 l) l
  | uint32 (l : List Nat) : AsIntegers o (.uint32 l) (l.map fun n : Nat => (n : Int))
  | uint64 (l : List Nat) : AsIntegers o (.uint64 l) (l.map fun n : Nat => Int.bmod n (2 ^ 64))
  | real (l : List R) : AsIntegers o (.real l) (l.map o.trunc)

/-- The numbers of a setting. -/
inductive AsNumbers {R : Type} (o : RealOps R) : SData R → List R → Prop where
  | int32 (l : List Int) : AsNumbers o (.int32 l) (l.map o.ofInt)
  | int64 (l : List Int) : AsNumbers o (.int64 l) (l.map o.ofInt)
  | uint32 (l : List Nat) : AsNumbers o (.uint32 l) (l.map fun n : Nat => o.ofInt n)
  | uint64 (l : List Nat) : AsNumbers o (.uint64 l) (l.map fun n : Nat => o.ofInt n)
  | real (l : List R) : AsNumbers o (.real l) l

/-- The first number passes as not negative; unsigned types are not looked at. -/
inductive FirstNonneg {R : Type} (o : RealOps R) : SData R → Prop where
  | int32 {x : Int} (l : List Int) (h : 0 ≤ x) : FirstNonneg o (.int32 (x :: l))
  | int64 {x : Int} (l : List Int) (h : 0 ≤ x) : FirstNonneg o (.int64 (x :: l))
  | uint32 (l : List Nat) : FirstNonneg o (.uint32 l)
  | uint64 (l : List Nat) : FirstNonneg o (.uint64 l)
  | real {x : R} (l : List R) (h : o.nonneg x = true) : FirstNonneg o (.real (x :: l))

theorem ow_getInteger {R : Type} {o : RealOps R} {d : SData R} {zs : List Int} (h : AsIntegers o d zs)
    {i : Nat} {z : Int} (hz : zs[i]? = some z) : d.getInteger o i = .val z := by
  cases h with
  | int32 l => exact idx_some hz
  | int64 l => exact idx_some hz
  | uint32 l =>
    rw [List.getElem?_map] at hz
    obtain ⟨y, hy, rfl⟩ := Option.map_eq_some_iff.1 hz
    simp only [SData.getInteger, idx_some hy, Got.map]
  | uint64 l =>
    rw [List.getElem?_map] at hz
    obtain ⟨y, hy, rfl⟩ := Option.map_eq_some_iff.1 hz
    simp only [SData.getInteger, idx_some hy, Got.map, wrapS64_bmod]
  | real l =>
    rw [List.getElem?_map] at hz
    obtain ⟨y, hy, rfl⟩ := Option.map_eq_some_iff.1 hz
    simp only [SData.getInteger, idx_some hy, Got.map]

theorem ow_getScalar {R : Type} {o : RealOps R} {d : SData R} {xs : List R} (h : AsNumbers o d xs)
    {i : Nat} {x : R} (hx : xs[i]? = some x) : d.getScalar o i = .val x := by
  cases h with
  | real l => exact idx_some hx
  | int32 l | int64 l | uint32 l | uint64 l =>
    rw [List.getElem?_map] at hx
    obtain ⟨y, hy, rfl⟩ := Option.map_eq_some_iff.1 hx
    simp only [SData.getScalar, idx_some hy, Got.map]

theorem ow_num {R : Type} {o : RealOps R} {d : SData R} {zs : List Int} (h : AsIntegers o d zs) :
    d.num = .val zs.length ∧ d.isBool = false ∧ d.isInteger = true := by
  cases h <;> simp [SData.num, SData.isBool, SData.isInteger]

theorem ow_num' {R : Type} {o : RealOps R} {d : SData R} {xs : List R} {zs : List Int} (hx : AsNumbers o d xs)
    (hz : AsIntegers o d zs) : xs.length = zs.length := by
  cases hx <;> cases hz <;> simp

/-- Line by line through the questions asked by `OverwriteValues`. -/
theorem ow_eq {R : Type} {o : RealOps R} {s : Source R} {b1 b2 b3 b4 b5 b6 : Bool}
    (h1 : s.isBool = .val b1) (h2 : s.isInteger32 = .val b2) (h3 : s.isInteger64 = .val b3)
    (h4 : s.isUnsigned32 = .val b4) (h5 : s.isUnsigned64 = .val b5) (h6 : s.isNumericVector = .val b6) :
    overwriteValues o s =
      if b1 then (fill false s.num s.getBool).map .bool
      else if b2 then (fill 0 s.num s.getInteger32).map .int32
      else if b3 then (fill 0 s.num s.getInteger64).map .int64
      else if b4 then (fill 0 s.num s.getUnsigned32).map .uint32
      else if b5 then (fill 0 s.num s.getUnsigned64).map .uint64
      else if b6 then (fill o.zero s.num s.getScalar).map .real
      else (fill [] s.num (fun _ => s.getString 0)).map .string := by
  unfold overwriteValues
  rw [h1]
  cases b1
  · simp only [Got.bind, Bool.false_eq_true, if_false, h2]
    cases b2
    · simp only [Bool.false_eq_true, if_false, h3]
      cases b3
      · simp only [Bool.false_eq_true, if_false, h4]
        cases b4
        · simp only [Bool.false_eq_true, if_false, h5]
          cases b5
          · simp only [Bool.false_eq_true, if_false, h6]
          · rfl
        · rfl
      · rfl
    · rfl
  · rfl

theorem ow_fill {α β : Type} (d : α) (n : Got Nat) (get : Nat → Got α) (l : List β) (f : β → α)
    (hn : n = .val l.length) (hg : ∀ i b, l[i]? = some b → get i = .val (f b)) :
    fill d n get = .val (List.replicate l.length d ++ l.map f) := by
  have := fill_eq d n get (l.map f) (by rw [hn, List.length_map]) (fun i a hi => by
    rw [List.getElem?_map] at hi
    obtain ⟨y, hy, rfl⟩ := Option.map_eq_some_iff.1 hi
    exact hg i y hy)
  rwa [List.length_map] at this

theorem ow_unsigned {R : Type} {o : RealOps R} {d : SData R} {z : Int} {zs : List Int}
    (hz : AsIntegers o d (z :: zs)) :
    (FirstNonneg o d → d.isUnsigned64 o 0 = .val true) ∧ (¬ FirstNonneg o d → d.isUnsigned64 o 0 = .val false) := by
  generalize hl : z :: zs = l at hz
  cases hz with
  | int32 l =>
    subst hl
    simp only [SData.isUnsigned64, idx, List.getElem?_cons_zero, Got.map, Got.val.injEq, decide_eq_true_eq,
      decide_eq_false_iff_not]
    exact ⟨fun h => by cases h; assumption, fun h hx => h (.int32 _ hx)⟩
  | int64 l =>
    subst hl
    simp only [SData.isUnsigned64, idx, List.getElem?_cons_zero, Got.map, Got.val.injEq, decide_eq_true_eq,
      decide_eq_false_iff_not]
    exact ⟨fun h => by cases h; assumption, fun h hx => h (.int64 _ hx)⟩
  | uint32 l => exact ⟨fun _ => rfl, fun h => absurd (.uint32 l) h⟩
  | uint64 l => exact ⟨fun _ => rfl, fun h => absurd (.uint64 l) h⟩
  | real l =>
    cases l with
    | nil => simp at hl
    | cons x l =>
      simp only [SData.isUnsigned64, idx, List.getElem?_cons_zero, Got.map, Got.val.injEq]
      refine ⟨fun h => by cases h; assumption, fun h => ?_⟩
      cases hx : o.nonneg x with
      | false => rfl
      | true => exact absurd (.real l hx) h

/-- **C20** Overwriting with the numbers of another file setting, the exact result.  The type is
chosen by the first number only, and all numbers are converted to it: 32 bits if the first, as a
64-bit integer, fits; the numbers themselves for other 64-bit settings; otherwise unsigned if the
first is not negative, of 32 bits if the first fits; real otherwise.  In front of the numbers there
are always as many zeros. -/
theorem C20_overwrite_numbers_exact {R : Type} (o : RealOps R) (d : SData R) (z : Int) (zs : List Int) (xs : List R)
    (hz : AsIntegers o d (z :: zs)) (hx : AsNumbers o d xs) :
    (- 2 ^ 31 ≤ z → z < 2 ^ 31 → overwriteValues o (d.source o) =
      .val (.int32 (List.replicate (zs.length + 1) 0 ++ (z :: zs).map fun y => Int.bmod y (2 ^ 32)))) ∧
    (¬ (- 2 ^ 31 ≤ z ∧ z < 2 ^ 31) → (∃ l, d = .int64 l) → overwriteValues o (d.source o) =
      .val (.int64 (List.replicate (zs.length + 1) 0 ++ z :: zs))) ∧
    (¬ (- 2 ^ 31 ≤ z ∧ z < 2 ^ 31) → (¬ ∃ l, d = .int64 l) →
      (FirstNonneg o d → z < 2 ^ 32 → overwriteValues o (d.source o) =
        .val (.uint32 (List.replicate (zs.length + 1) 0 ++ (z :: zs).map fun y => (y % 2 ^ 32).toNat))) ∧
      (FirstNonneg o d → 2 ^ 32 ≤ z → overwriteValues o (d.source o) =
        .val (.uint64 (List.replicate (zs.length + 1) 0 ++ (z :: zs).map fun y => (y % 2 ^ 64).toNat))) ∧
      (¬ FirstNonneg o d → overwriteValues o (d.source o) =
        .val (.real (List.replicate (zs.length + 1) o.zero ++ xs)))) := by
  obtain ⟨hn, hb, hi⟩ := ow_num hz
  have hget0 : d.getInteger o 0 = .val z := ow_getInteger hz rfl
  have hint : ∀ i y, (z :: zs)[i]? = some y → d.getInteger o i = .val y := fun i y h => ow_getInteger hz h
  have hlen := ow_num' hx hz
  -- the questions
  have q1 : (d.source o).isBool = .val false := by show Got.val d.isBool = _; rw [hb]
  have q2 : (d.source o).isInteger32 = .val (decide (z ≤ 2 ^ 31 - 1 ∧ - 2 ^ 31 ≤ z)) := by
    show d.isInteger32 o = _
    unfold SData.isInteger32
    rw [hi, if_pos rfl, hget0]; rfl
  have q3 : (d.source o).isInteger64 = .val d.isInteger64 := rfl
  have q6 : (d.source o).isNumericVector = .val true := by show Got.val d.isInteger = _; rw [hi]
  obtain ⟨u1, u2⟩ := ow_unsigned hz
  -- the loops
  have f32 : fill 0 (d.source o).num (d.source o).getInteger32 =
      .val (List.replicate (zs.length + 1) 0 ++ (z :: zs).map fun y => Int.bmod y (2 ^ 32)) :=
    ow_fill 0 _ _ (z :: zs) _ hn fun i y h => by
      show (d.getInteger o i).map (wrapS 32) = _
      rw [hint i y h, Got.map, wrapS32_bmod]
  have f64 : fill 0 (d.source o).num (d.source o).getInteger64 =
      .val (List.replicate (zs.length + 1) 0 ++ z :: zs) := fill_eq 0 _ _ (z :: zs) hn hint
  have fu32 : fill 0 (d.source o).num (d.source o).getUnsigned32 =
      .val (List.replicate (zs.length + 1) 0 ++ (z :: zs).map fun y => (y % 2 ^ 32).toNat) :=
    ow_fill 0 _ _ (z :: zs) _ hn fun i y h => by
      show (d.getInteger o i).map (wrapU 32) = _
      rw [hint i y h]; rfl
  have fu64 : fill 0 (d.source o).num (d.source o).getUnsigned64 =
      .val (List.replicate (zs.length + 1) 0 ++ (z :: zs).map fun y => (y % 2 ^ 64).toNat) :=
    ow_fill 0 _ _ (z :: zs) _ hn fun i y h => by
      show (d.getInteger o i).map (wrapU 64) = _
      rw [hint i y h]; rfl
  have fr : fill o.zero (d.source o).num (d.source o).getScalar =
      .val (List.replicate (zs.length + 1) o.zero ++ xs) := by
    have := fill_eq o.zero (d.source o).num (d.source o).getScalar xs (by rw [hlen]; exact hn)
      fun i x h => ow_getScalar hx h
    rwa [hlen] at this
  have q5 : ∃ b5, (d.source o).isUnsigned64 = .val b5 ∧ (FirstNonneg o d → b5 = true) ∧
      (¬ FirstNonneg o d → b5 = false) := by
    by_cases h : FirstNonneg o d
    · exact ⟨true, u1 h, fun _ => rfl, fun h' => absurd h h'⟩
    · exact ⟨false, u2 h, fun h' => absurd h' h, fun _ => rfl⟩
  obtain ⟨b5, q5, v1, v2⟩ := q5
  have q4 : (d.source o).isUnsigned32 = .val (b5 && decide (z ≤ 2 ^ 32 - 1)) := by
    show d.isUnsigned32 o 0 = _
    have : d.isUnsigned64 o 0 = .val b5 := q5
    unfold SData.isUnsigned32
    rw [this, Got.bind]
    cases b5
    · rfl
    · rw [if_pos rfl, hget0]; simp [Got.map]
  rw [ow_eq q1 q2 q3 q4 q5 q6, f32, f64, fu32, fu64, fr]
  refine ⟨fun h1 h2 => ?_, fun h1 ⟨l, hl⟩ => ?_, fun h1 hl => ⟨fun h2 h3 => ?_, fun h2 h3 => ?_, fun h2 => ?_⟩⟩
  · rw [decide_eq_true (show z ≤ 2 ^ 31 - 1 ∧ - 2 ^ 31 ≤ z from ⟨by omega, h1⟩)]; rfl
  · rw [decide_eq_false (show ¬ (z ≤ 2 ^ 31 - 1 ∧ - 2 ^ 31 ≤ z) from fun h => h1 ⟨h.2, by omega⟩), hl]; rfl
  all_goals
    have e3 : d.isInteger64 = false := by
      cases d with
      | int64 l => exact absurd ⟨l, rfl⟩ hl
      | _ => rfl
    rw [decide_eq_false (show ¬ (z ≤ 2 ^ 31 - 1 ∧ - 2 ^ 31 ≤ z) from fun h => h1 ⟨h.2, by omega⟩), e3]
  · rw [v1 h2, decide_eq_true (show z ≤ 2 ^ 32 - 1 by omega)]; rfl
  · rw [v1 h2, decide_eq_false (show ¬ z ≤ 2 ^ 32 - 1 by omega)]; rfl
  · rw [v2 h2]; rfl

/-- **C20** Overwriting with a file setting that holds no numbers: truth values follow as many
`false`; of texts only the first is used; a setting of numbers without any is out of range; one
without type is reported. -/
theorem C20_overwrite_others_exact {R : Type} (o : RealOps R) :
    (∀ l, overwriteValues o ((SData.bool l : SData R).source o) = .val (.bool (List.replicate l.length false ++ l))) ∧
    (∀ l, overwriteValues o ((SData.string l : SData R).source o) =
      .val (.string (List.replicate l.length [] ++ (l.take 1).flatMap (List.replicate l.length)))) ∧
    (∀ d : SData R, AsIntegers o d [] → overwriteValues o (d.source o) = .range) ∧
    overwriteValues o ((SData.unspecified : SData R).source o) = .softlib := by
  refine ⟨(C20_overwrite_same_type_partial o).1, fun l => ?_, fun d hd => ?_, rfl⟩
  · cases l with
    | nil => rfl
    | cons x l =>
      rw [C20_overwrite_strings_repeat_first]
      simp
  · generalize hl : ([] : List Int) = l at hd
    cases hd with
    | int32 l => subst hl; rfl
    | int64 l => subst hl; rfl
    | uint32 l => cases l with
      | nil => rfl
      | cons x l => simp at hl
    | uint64 l => cases l with
      | nil => rfl
      | cons x l => simp at hl
    | real l => cases l with
      | nil => rfl
      | cons x l => simp at hl

/-- **C20** (refuted further) Unsigned 64-bit numbers are not kept even apart from the zeros: 2^63
becomes the 32-bit number 0, and 2^64 - 1 becomes -1. -/
theorem C20_refuted_unsigned {R : Type} (o : RealOps R) :
    overwriteValues o ((SData.uint64 [2 ^ 63] : SData R).source o) = .val (.uint32 [0, 0]) ∧
    overwriteValues o ((SData.uint64 [2 ^ 64 - 1] : SData R).source o) = .val (.int32 [0, -1]) := by
  constructor
  · rw [((C20_overwrite_numbers_exact o (.uint64 [2 ^ 63]) (Int.bmod (2 ^ 63 : Nat) (2 ^ 64)) [] [o.ofInt (2 ^ 63 : Nat)]
      (.uint64 [2 ^ 63]) (.uint64 [2 ^ 63])).2.2 (by decide +kernel) (by simp)).1 (.uint64 _) (by decide +kernel)]
    congr 2
  · rw [(C20_overwrite_numbers_exact o (.uint64 [2 ^ 64 - 1]) (Int.bmod (2 ^ 64 - 1 : Nat) (2 ^ 64)) []
      [o.ofInt (2 ^ 64 - 1 : Nat)] (.uint64 [2 ^ 64 - 1]) (.uint64 [2 ^ 64 - 1])).1 (by decide +kernel) (by decide +kernel)]
    congr 2

/-- **C20** Overwriting with a setting from a script: the exact result for several values.  All of
them numbers: the numbers behind as many zeros; otherwise the first text, repeated. -/
theorem C20_overwrite_script_several {R : Type} (o : RealOps R) (erange : Str → Bool) (conv : Str → R) (vs : List Str)
    (h : vs.length ≠ 1) :
    (∀ ts, getNumericVector erange vs = .val ts → overwriteValues o (scriptSource erange conv vs) =
      .val (.real (List.replicate vs.length o.zero ++ ts.map conv))) ∧
    (isNumericVector erange vs = .val false → overwriteValues o (scriptSource erange conv vs) =
      .val (.string (List.replicate vs.length [] ++ (vs.take 1).flatMap (List.replicate vs.length)))) ∧
    (isNumericVector erange vs = .range → overwriteValues o (scriptSource erange conv vs) = .range) := by
  have s1 : ∀ f, single f vs = .val false := fun f => by unfold single; rw [if_pos h]
  have base : overwriteValues o (scriptSource erange conv vs) =
      (isNumericVector erange vs).bind fun b =>
        if b then (fill o.zero (.val vs.length) fun i => (getScalar erange vs i).map conv).map .real
        else (fill [] (.val vs.length) (fun _ => idx vs 0)).map .string := by
    unfold overwriteValues scriptSource
    simp only [s1, Got.bind, Bool.false_eq_true, if_false]
  rw [base]
  refine ⟨fun ts ht => ?_, fun hf => ?_, fun hr => by rw [hr]; rfl⟩
  · have hnv : isNumericVector erange vs = .val true := ((C19_vector_partial erange vs).2).2 ⟨ts, ht⟩
    have hts : ts.length = vs.length ∧ ∀ (i : Nat) (t : Str), ts[i]? = some t → getScalar erange vs i = .val t := by
      clear hnv base s1 h
      induction vs generalizing ts with
      | nil =>
        simp only [getNumericVector, Got.val.injEq] at ht
        subst ht; simp
      | cons v vs ih =>
        rw [getNumericVector] at ht
        split at ht
        · rename_i t hv
          cases hg : getNumericVector erange vs with
          | val us =>
            rw [hg] at ht
            simp only [Got.val.injEq] at ht
            subst ht
            obtain ⟨h1, h2⟩ := ih us hg
            refine ⟨by simp [h1], fun i u hu => ?_⟩
            cases i with
            | zero =>
              simp only [List.getElem?_cons_zero, Option.some.injEq] at hu
              subst hu
              exact hv
            | succ i =>
              have := h2 i u (by simpa using hu)
              simpa [getScalar, atIdx] using this
          | invalid => rw [hg] at ht; cases ht
          | range => rw [hg] at ht; cases ht
          | softlib => rw [hg] at ht; cases ht
        all_goals cases ht
    rw [hnv, Got.bind, if_pos rfl]
    have := ow_fill o.zero (.val vs.length) (fun i => (getScalar erange vs i).map conv) ts conv (by rw [hts.1])
      (fun i t hi => by rw [hts.2 i t hi]; rfl)
    rw [this, hts.1]; rfl
  · rw [hf, Got.bind, if_neg (by simp)]
    cases vs with
    | nil => cases hf
    | cons x l =>
      have hfill : fill ([] : Str) (.val (x :: l).length) (fun _ => idx (x :: l) 0) =
          .val (List.replicate (List.replicate (l.length + 1) x).length [] ++ List.replicate (l.length + 1) x) :=
        fill_eq _ _ _ _ (by rw [List.length_replicate]; rfl) (fun i a hi => by
          have := List.mem_of_getElem? hi
          rw [List.mem_replicate] at this
          rw [this.2]; rfl)
      rw [hfill]
      simp [Got.map]

/-- Three numbers of a script behind three zeros. -/
example : overwriteValues intOps (scriptSource (fun _ => false) (fun s => (s.length : Int)) ["1".toList, "20".toList]) =
    .val (.real [0, 0, 1, 2]) := by decide +kernel

end Softlib
