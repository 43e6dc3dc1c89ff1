/-
Repeated reads from an SDT file: model and property C24.

Source: /repo/src/SFile/SFile_SDT.cpp 130-311, /repo/src/SFile/SFile.cpp 150-195, 299-317.

`GetDoubles` hands out the pointer kept in the map of matrices, not the copy it allocates
(SFile_SDT.cpp 139-144); `GetList`, `__Get2DAs`, `__GetSingle` and the integer conversions
`delete[]` what they got.  The state is the set of names whose memory has been released.
Reading released memory is undefined behaviour.
-/
import Verif.SFile.SdtModel

namespace Softlib.SFile

open Softlib.Config

/-- The reading functions, grouped by what they do with the memory. -/
inductive ReadOp where
  /-- `GetDoubles` -/
  | doubles (n : Str)
  /-- `GetDoubles1D`, also the 1D integer conversions -/
  | doubles1D (n : Str)
  /-- `GetList` -/
  | list (n : Str)
  /-- `GetScalar` -/
  | scalar (n : Str)
  /-- `GetInt32`, `GetInt64`, ... : `__GetSingle` on top of a 2D integer conversion -/
  | intScalar (n : Str)
  /-- `GetInt32_2D`, ..., `GetIntArray` -/
  | intArray (n : Str)
  /-- `GetAttributeScalar` -/
  | attrScalar (d n : Str)
  /-- `GetString` -/
  | str (n : Str)
  /-- `GetAttributeString` -/
  | attrStr (d n : Str)
  deriving DecidableEq

inductive Answer (α : Type) where
  | matrix (m : Matrix α)
  | vector (l : List α)
  | number (a : α)
  | text (t : List UInt8)
  | exception
  | ub
  deriving DecidableEq

/-- Shapes accepted by `GetDoubles1D` (214-219), with the length it uses. -/
def length1D {α : Type} (m : Matrix α) : Option Nat :=
  if m.nrows = 1 then some m.ncols
  else if m.ncols ≠ 1 then some m.nrows
  else none

/-- `arr[0][0]`. -/
def firstElem {α : Type} (m : Matrix α) : Answer α :=
  match m.vals.flatten[0]? with
  | some a => .number a
  | none => .ub

/-- One read; the second component is the new set of released names. -/
def readStep {α : Type} (st : Store α) (freed : List Str) : ReadOp → Answer α × List Str
  | .doubles n =>
    match lookup st.mats n with
    | none => (.exception, freed)
    | some m => if n ∈ freed then (.ub, freed) else (.matrix m, freed)
  | .doubles1D n =>
    match lookup st.mats n with
    | none => (.exception, freed)
    | some m =>
      match length1D m with
      | none => (.exception, freed)
      | some k =>
        if n ∈ freed then (.ub, freed)
        else if k ≤ m.vals.flatten.length then (.vector (m.vals.flatten.take k), freed)
        else (.ub, freed)
  | .list n =>
    match lookup st.mats n with
    | none => (.exception, freed)
    | some m =>
      if m.nrows = 1 ∨ m.ncols = 1 then
        if n ∈ freed then (.ub, freed) else (.vector m.vals.flatten, n :: freed)
      else (.exception, freed)
  | .scalar n =>
    match lookup st.mats n with
    | none => (.exception, freed)
    | some m =>
      if m.nrows ≠ 1 ∨ m.ncols ≠ 1 then (.exception, freed)
      else if n ∈ freed then (.ub, freed) else (firstElem m, n :: freed)
  | .intScalar n =>
    match lookup st.mats n with
    | none => (.exception, freed)
    | some m =>
      if n ∈ freed then (.ub, freed)
      else if m.nrows ≠ 1 ∨ m.ncols ≠ 1 then (.exception, n :: freed)
      else (firstElem m, n :: freed)
  | .intArray n =>
    match lookup st.mats n with
    | none => (.exception, freed)
    | some m => if n ∈ freed then (.ub, freed) else (.matrix m, n :: freed)
  | .attrScalar d n =>
    match lookup st.mats (attrName d n) with
    | none => (.exception, freed)
    | some m =>
      if m.nrows ≠ 1 ∨ m.ncols ≠ 1 then (.exception, freed)
      else if attrName d n ∈ freed then (.ub, freed) else (firstElem m, freed)
  | .str n =>
    match lookup st.strs n with
    | none => (.exception, freed)
    | some t => (.text t, freed)
  | .attrStr d n =>
    match lookup st.strs (attrName d n) with
    | none => (.exception, freed)
    | some t => (.text t, freed)

/-- A history of reads; nothing is known after undefined behaviour. -/
def readAll {α : Type} (st : Store α) : List Str → List ReadOp → List (Answer α)
  | _, [] => []
  | freed, r :: rs =>
    match readStep st freed r with
    | (.ub, _) => [.ub]
    | (a, freed') => a :: readAll st freed' rs

end Softlib.SFile

namespace Softlib

open Softlib.Config Softlib.SFile

/-- What a read gives on a freshly opened file. -/
def freshAnswer {α : Type} (st : Store α) (r : ReadOp) : Answer α := (readStep st [] r).1

/-- The read follows the pointers kept for the matrix `n`. -/
inductive Follows {α : Type} (st : Store α) : ReadOp → Str → Prop where
  | doubles {n m} : lookup st.mats n = some m → Follows st (.doubles n) n
  | doubles1D {n m k} : lookup st.mats n = some m → length1D m = some k → Follows st (.doubles1D n) n
  | list {n m} : lookup st.mats n = some m → (m.nrows = 1 ∨ m.ncols = 1) → Follows st (.list n) n
  | scalar {n m} : lookup st.mats n = some m → m.nrows = 1 → m.ncols = 1 → Follows st (.scalar n) n
  | intScalar {n m} : lookup st.mats n = some m → Follows st (.intScalar n) n
  | intArray {n m} : lookup st.mats n = some m → Follows st (.intArray n) n
  | attrScalar {d n m} : lookup st.mats (d ++ '_' :: n) = some m → m.nrows = 1 → m.ncols = 1 →
      Follows st (.attrScalar d n) (d ++ '_' :: n)

/-- The read is one that also deletes the memory kept for the matrix `n`. -/
inductive Releases {α : Type} (st : Store α) : ReadOp → Str → Prop where
  | list {n} : Follows st (.list n) n → Releases st (.list n) n
  | scalar {n} : Follows st (.scalar n) n → Releases st (.scalar n) n
  | intScalar {n} : Follows st (.intScalar n) n → Releases st (.intScalar n) n
  | intArray {n} : Follows st (.intArray n) n → Releases st (.intArray n) n

/-- Matrices as loaded from files (at least one row, entries as the dimensions say), with at
least one column. -/
def ProperStore {α : Type} (st : Store α) : Prop :=
  ∀ n m, lookup st.mats n = some m → 0 < m.nrows ∧ 0 < m.ncols ∧ m.vals.flatten.length = m.nrows * m.ncols

theorem firstElem_proper {α : Type} {m : Matrix α} (h : 0 < m.vals.flatten.length) : firstElem m ≠ .ub := by
  unfold firstElem
  rw [List.getElem?_eq_getElem h]
  simp

theorem step_cases {α : Type} (st : Store α) (hp : ProperStore st) (freed : List Str) (r : ReadOp) :
    ((∃ n, Follows st r n ∧ n ∈ freed) → (readStep st freed r).1 = .ub) ∧
    ((∀ n, Follows st r n → n ∉ freed) →
      (readStep st freed r).1 = freshAnswer st r ∧ (readStep st freed r).1 ≠ .ub ∧
      ∀ x, x ∈ (readStep st freed r).2 ↔ x ∈ freed ∨ Releases st r x) := by
  cases r with
  | doubles n =>
    constructor
    · rintro ⟨k, hf, hk⟩
      cases hf with
      | doubles hm => simp [readStep, hm, hk]
    · intro h
      cases hm : lookup st.mats n with
      | none =>
        simp only [readStep, freshAnswer, hm]
        refine ⟨trivial, by simp, fun x => ⟨.inl, ?_⟩⟩
        rintro (h | h)
        · exact h
        · cases h
      | some m =>
        have hn := h n (.doubles hm)
        simp only [readStep, freshAnswer, hm, if_neg hn]
        refine ⟨by simp, by simp, fun x => ⟨.inl, ?_⟩⟩
        rintro (h | h)
        · exact h
        · cases h
  | doubles1D n =>
    constructor
    · rintro ⟨k, hf, hk⟩
      cases hf with
      | doubles1D hm hl => simp [readStep, hm, hk, hl]
    · intro h
      cases hm : lookup st.mats n with
      | none =>
        simp only [readStep, freshAnswer, hm]
        refine ⟨trivial, by simp, fun x => ⟨.inl, ?_⟩⟩
        rintro (h | h)
        · exact h
        · cases h
      | some m =>
        cases hl : length1D m with
        | none =>
          simp only [readStep, freshAnswer, hm, hl]
          refine ⟨trivial, by simp, fun x => ⟨.inl, ?_⟩⟩
          rintro (h | h)
          · exact h
          · cases h
        | some k =>
          have hn := h n (.doubles1D hm hl)
          have hk : k ≤ m.vals.flatten.length := by
            obtain ⟨p1, p2, p3⟩ := hp n m hm
            rw [p3]
            unfold length1D at hl
            split at hl
            · rename_i e; cases hl; rw [e, Nat.one_mul]; exact Nat.le_refl _
            · split at hl
              · cases hl; exact Nat.le_mul_of_pos_right _ p2
              · cases hl
          simp only [readStep, freshAnswer, hm, hl, if_neg hn, if_pos hk]
          refine ⟨by simp, by simp, fun x => ⟨.inl, ?_⟩⟩
          rintro (h | h)
          · exact h
          · cases h
  | list n =>
    constructor
    · rintro ⟨k, hf, hk⟩
      cases hf with
      | list hm hs => simp [readStep, hm, hk, hs]
    · intro h
      cases hm : lookup st.mats n with
      | none =>
        simp only [readStep, freshAnswer, hm]
        refine ⟨trivial, by simp, fun x => ⟨.inl, ?_⟩⟩
        rintro (h | h)
        · exact h
        · cases h with
          | list hf => cases hf with | list hm' _ => rw [hm] at hm'; cases hm'
      | some m =>
        by_cases hs : m.nrows = 1 ∨ m.ncols = 1
        · have hf : Follows st (.list n) n := .list hm hs
          have hn := h n hf
          simp only [readStep, freshAnswer, hm, if_pos hs, if_neg hn]
          refine ⟨by simp, by simp, fun x => ?_⟩
          simp only [List.mem_cons]
          constructor
          · rintro (rfl | h)
            · exact .inr (.list hf)
            · exact .inl h
          · rintro (h | h)
            · exact .inr h
            · cases h with | list _ => exact .inl rfl
        · simp only [readStep, freshAnswer, hm, if_neg hs]
          refine ⟨trivial, by simp, fun x => ⟨.inl, ?_⟩⟩
          rintro (h | h)
          · exact h
          · cases h with
            | list hf => cases hf with | list hm' hs' => rw [hm] at hm'; cases hm'; exact absurd hs' hs
  | scalar n =>
    constructor
    · rintro ⟨k, hf, hk⟩
      cases hf with
      | scalar hm h1 h2 => simp [readStep, hm, hk, h1, h2]
    · intro h
      cases hm : lookup st.mats n with
      | none =>
        simp only [readStep, freshAnswer, hm]
        refine ⟨trivial, by simp, fun x => ⟨.inl, ?_⟩⟩
        rintro (h | h)
        · exact h
        · cases h with
          | scalar hf => cases hf with | scalar hm' _ => rw [hm] at hm'; cases hm'
      | some m =>
        by_cases hs : m.nrows ≠ 1 ∨ m.ncols ≠ 1
        · simp only [readStep, freshAnswer, hm, if_pos hs]
          refine ⟨trivial, by simp, fun x => ⟨.inl, ?_⟩⟩
          rintro (h | h)
          · exact h
          · cases h with
            | scalar hf =>
              cases hf with
              | scalar hm' h1 h2 =>
                rw [hm] at hm'; cases hm'
                rcases hs with hs | hs
                · exact absurd h1 hs
                · exact absurd h2 hs
        · have hs' : m.nrows = 1 ∧ m.ncols = 1 := by omega
          have hf : Follows st (.scalar n) n := .scalar hm hs'.1 hs'.2
          have hn := h n hf
          simp only [readStep, freshAnswer, hm, if_neg hs, if_neg hn]
          refine ⟨by simp, firstElem_proper (by rw [(hp n m hm).2.2, hs'.1, hs'.2]; decide), fun x => ?_⟩
          simp only [List.mem_cons]
          constructor
          · rintro (rfl | h)
            · exact .inr (.scalar hf)
            · exact .inl h
          · rintro (h | h)
            · exact .inr h
            · cases h with | scalar _ => exact .inl rfl
  | intScalar n =>
    constructor
    · rintro ⟨k, hf, hk⟩
      cases hf with
      | intScalar hm => simp [readStep, hm, hk]
    · intro h
      cases hm : lookup st.mats n with
      | none =>
        simp only [readStep, freshAnswer, hm]
        refine ⟨trivial, by simp, fun x => ⟨.inl, ?_⟩⟩
        rintro (h | h)
        · exact h
        · cases h with
          | intScalar hf => cases hf with | intScalar hm' => rw [hm] at hm'; cases hm'
      | some m =>
        have hf : Follows st (.intScalar n) n := .intScalar hm
        have hn := h n hf
        have hmem : ∀ x, x ∈ n :: freed ↔ x ∈ freed ∨ Releases st (.intScalar n) x := by
          intro x
          simp only [List.mem_cons]
          constructor
          · rintro (rfl | h)
            · exact .inr (.intScalar hf)
            · exact .inl h
          · rintro (h | h)
            · exact .inr h
            · cases h with | intScalar _ => exact .inl rfl
        by_cases hs : m.nrows ≠ 1 ∨ m.ncols ≠ 1
        · simp only [readStep, freshAnswer, hm, if_pos hs, if_neg hn]
          exact ⟨by simp, by simp, hmem⟩
        · have hs' : m.nrows = 1 ∧ m.ncols = 1 := by omega
          simp only [readStep, freshAnswer, hm, if_neg hs, if_neg hn]
          exact ⟨by simp, firstElem_proper (by rw [(hp n m hm).2.2, hs'.1, hs'.2]; decide), hmem⟩
  | intArray n =>
    constructor
    · rintro ⟨k, hf, hk⟩
      cases hf with
      | intArray hm => simp [readStep, hm, hk]
    · intro h
      cases hm : lookup st.mats n with
      | none =>
        simp only [readStep, freshAnswer, hm]
        refine ⟨trivial, by simp, fun x => ⟨.inl, ?_⟩⟩
        rintro (h | h)
        · exact h
        · cases h with
          | intArray hf => cases hf with | intArray hm' => rw [hm] at hm'; cases hm'
      | some m =>
        have hf : Follows st (.intArray n) n := .intArray hm
        have hn := h n hf
        simp only [readStep, freshAnswer, hm, if_neg hn]
        refine ⟨by simp, by simp, fun x => ?_⟩
        simp only [List.mem_cons]
        constructor
        · rintro (rfl | h)
          · exact .inr (.intArray hf)
          · exact .inl h
        · rintro (h | h)
          · exact .inr h
          · cases h with | intArray _ => exact .inl rfl
  | attrScalar d n =>
    constructor
    · rintro ⟨k, hf, hk⟩
      cases hf with
      | attrScalar hm h1 h2 =>
        simp only [readStep, attrName, hm, h1, h2]
        simp [hk]
    · intro h
      cases hm : lookup st.mats (d ++ '_' :: n) with
      | none =>
        simp only [readStep, freshAnswer, attrName, hm]
        refine ⟨trivial, by simp, fun x => ⟨.inl, ?_⟩⟩
        rintro (h | h)
        · exact h
        · cases h
      | some m =>
        by_cases hs : m.nrows ≠ 1 ∨ m.ncols ≠ 1
        · simp only [readStep, freshAnswer, attrName, hm, if_pos hs]
          refine ⟨trivial, by simp, fun x => ⟨.inl, ?_⟩⟩
          rintro (h | h)
          · exact h
          · cases h
        · have hs' : m.nrows = 1 ∧ m.ncols = 1 := by omega
          have hn := h _ (.attrScalar hm hs'.1 hs'.2)
          have e : ∀ fr : List Str, d ++ '_' :: n ∉ fr →
              readStep st fr (.attrScalar d n) = (firstElem m, fr) := by
            intro fr hfr
            simp [readStep, attrName, hm, hs'.1, hs'.2, hfr]
          simp only [freshAnswer, e freed hn, e [] (by simp)]
          refine ⟨trivial, firstElem_proper (by rw [(hp _ m hm).2.2, hs'.1, hs'.2]; decide), fun x => ⟨.inl, ?_⟩⟩
          rintro (h | h)
          · exact h
          · cases h
  | str n =>
    constructor
    · rintro ⟨k, hf, hk⟩
      cases hf
    · intro _
      simp only [readStep, freshAnswer]
      cases lookup st.strs n <;>
      · refine ⟨rfl, by simp, fun x => ⟨.inl, ?_⟩⟩
        rintro (h | h)
        · exact h
        · cases h
  | attrStr d n =>
    constructor
    · rintro ⟨k, hf, hk⟩
      cases hf
    · intro _
      simp only [readStep, freshAnswer]
      cases lookup st.strs (attrName d n) <;>
      · refine ⟨rfl, by simp, fun x => ⟨.inl, ?_⟩⟩
        rintro (h | h)
        · exact h
        · cases h

/-- No read follows pointers whose memory is in `freed` or was released by an earlier read. -/
def SafeHistory {α : Type} (st : Store α) (freed : List Str) (rs : List ReadOp) : Prop :=
  (∀ r ∈ rs, ∀ n, Follows st r n → n ∉ freed) ∧
  ∀ (i j : Nat) (r r' : ReadOp) (n : Str), i < j → rs[i]? = some r → rs[j]? = some r' →
    Releases st r n → ¬ Follows st r' n

theorem readAll_ub {α : Type} (st : Store α) (freed : List Str) (r : ReadOp) (rs : List ReadOp)
    (h : (readStep st freed r).1 = .ub) : readAll st freed (r :: rs) = [.ub] := by
  rw [readAll]
  split
  · rfl
  · rename_i a f hne heq
    rw [heq] at h
    exact absurd h (hne ·)

theorem readAll_ok {α : Type} (st : Store α) (freed : List Str) (r : ReadOp) (rs : List ReadOp)
    (h : (readStep st freed r).1 ≠ .ub) :
    readAll st freed (r :: rs) = (readStep st freed r).1 :: readAll st (readStep st freed r).2 rs := by
  rw [readAll]
  split
  · rename_i heq
    rw [heq] at h
    exact absurd rfl h
  · rename_i a f hne heq
    rw [heq]

theorem safe_iff {α : Type} (st : Store α) (hp : ProperStore st) (rs : List ReadOp) :
    ∀ freed : List Str, (SafeHistory st freed rs → readAll st freed rs = rs.map (freshAnswer st) ∧
        .ub ∉ readAll st freed rs) ∧
      (¬ SafeHistory st freed rs → .ub ∈ readAll st freed rs) := by
  induction rs with
  | nil =>
    intro freed
    refine ⟨fun _ => ⟨rfl, by simp [readAll]⟩, fun h => ?_⟩
    exfalso
    apply h
    refine ⟨?_, ?_⟩
    · intro r hr
      cases hr
    · intro i j r r' n hij hi
      simp at hi
  | cons r rs ih =>
    intro freed
    obtain ⟨hub, hok⟩ := step_cases st hp freed r
    by_cases hbad : ∃ n, Follows st r n ∧ n ∈ freed
    · constructor
      · intro hs
        obtain ⟨n, hf, hn⟩ := hbad
        exact absurd hn (hs.1 r (by simp) n hf)
      · intro _
        rw [readAll_ub _ _ _ _ (hub hbad)]
        simp
    · obtain ⟨h1, h2, h3⟩ := hok (fun n hf hn => hbad ⟨n, hf, hn⟩)
      obtain ⟨ih1, ih2⟩ := ih (readStep st freed r).2
      have hiff : SafeHistory st freed (r :: rs) ↔ SafeHistory st (readStep st freed r).2 rs := by
        constructor
        · intro hs
          refine ⟨?_, ?_⟩
          · intro r' hr' n hf hn
            rcases (h3 n).1 hn with hn | hn
            · exact hs.1 r' (by simp [hr']) n hf hn
            · obtain ⟨j, hj⟩ := List.getElem?_of_mem hr'
              exact hs.2 0 (j + 1) r r' n (by omega) rfl (by simpa using hj) hn hf
          · intro i j a b n hij hi hj ha
            exact hs.2 (i + 1) (j + 1) a b n (by omega) (by simpa using hi) (by simpa using hj) ha
        · intro hs
          refine ⟨?_, ?_⟩
          · intro r' hr' n hf hn
            rcases List.mem_cons.1 hr' with rfl | hr'
            · exact hbad ⟨n, hf, hn⟩
            · exact hs.1 r' hr' n hf ((h3 n).2 (.inl hn))
          · intro i j a b n hij hi hj ha hb
            cases j with
            | zero => omega
            | succ j =>
              have hj' : rs[j]? = some b := by simpa using hj
              cases i with
              | zero =>
                have : r = a := by simpa using hi
                subst this
                exact hs.1 b (List.mem_of_getElem? hj') n hb ((h3 n).2 (.inr ha))
              | succ i => exact hs.2 i j a b n (by omega) (by simpa using hi) hj' ha hb
      rw [readAll_ok _ _ _ _ h2, hiff, List.map_cons]
      constructor
      · intro hs
        obtain ⟨e1, e2⟩ := ih1 hs
        refine ⟨by rw [h1, e1], ?_⟩
        rw [List.mem_cons, not_or]
        exact ⟨fun e => h2 e.symm, e2⟩
      · intro hs
        exact List.mem_cons_of_mem _ (ih2 hs)

/-- C24, exact form: in a history of reads every answer is the one of a fresh file, unless some
read follows the pointers of a matrix that an earlier read (a scalar, list or integer read)
has released; in that case, and only then, there is undefined behaviour.
Missing: the property as stated, since the second case occurs. -/
theorem C24_repeatable_iff_partial {α : Type} (st : Store α) (hp : ProperStore st) (rs : List ReadOp) :
    (readAll st [] rs = rs.map (freshAnswer st) ∧ .ub ∉ readAll st [] rs ↔
      ∀ (i j : Nat) (r r' : ReadOp) (n : Str), i < j → rs[i]? = some r → rs[j]? = some r' →
        Releases st r n → ¬ Follows st r' n) ∧
    (.ub ∈ readAll st [] rs ↔
      ∃ (i j : Nat) (r r' : ReadOp) (n : Str), i < j ∧ rs[i]? = some r ∧ rs[j]? = some r' ∧
        Releases st r n ∧ Follows st r' n) := by
  obtain ⟨h1, h2⟩ := safe_iff st hp rs []
  have hs : SafeHistory st [] rs ↔ ∀ (i j : Nat) (r r' : ReadOp) (n : Str), i < j → rs[i]? = some r →
      rs[j]? = some r' → Releases st r n → ¬ Follows st r' n := by
    constructor
    · exact fun h => h.2
    · intro h
      exact ⟨fun r _ n _ hn => (by cases hn), h⟩
  constructor
  · constructor
    · rintro ⟨-, hu⟩
      rw [← hs]
      exact Classical.byContradiction fun hns => hu (h2 hns)
    · intro h
      exact h1 (hs.2 h)
  · constructor
    · intro hu
      refine Classical.byContradiction fun hne => ?_
      refine (h1 (hs.2 ?_)).2 hu
      intro i j r r' n a b c d e
      exact hne ⟨i, j, r, r', n, a, b, c, d, e⟩
    · rintro ⟨i, j, r, r', n, a, b, c, d, e⟩
      apply h2
      intro h
      exact h.2 i j r r' n a b c d e

/-- C24: string reads, attribute reads, `GetDoubles` and `GetDoubles1D` can be repeated in any
order and number. -/
theorem C24_non_releasing_partial {α : Type} (st : Store α) (hp : ProperStore st) (rs : List ReadOp)
    (h : ∀ r ∈ rs, (∃ n, r = .doubles n) ∨ (∃ n, r = .doubles1D n) ∨ (∃ d n, r = .attrScalar d n) ∨
      (∃ n, r = .str n) ∨ (∃ d n, r = .attrStr d n)) :
    readAll st [] rs = rs.map (freshAnswer st) := by
  refine ((C24_repeatable_iff_partial st hp rs).1.2 ?_).1
  intro i j r r' n _ hi _ hrel
  rcases h r (List.mem_of_getElem? hi) with ⟨_, rfl⟩ | ⟨_, rfl⟩ | ⟨_, _, rfl⟩ | ⟨_, rfl⟩ | ⟨_, _, rfl⟩ <;> cases hrel

/-- C24 as stated is refuted: reading the same scalar twice. -/
theorem C24_refuted : readAll ⟨[(['a'], ⟨1, 1, [[(5 : Int)]]⟩)], []⟩ [] [.scalar ['a'], .scalar ['a']] =
    [.number 5, .ub] := by decide

/-- The inverted test of `GetDoubles1D`: a column vector is rejected, a proper matrix is read as
a vector made of its first elements. -/
theorem C24_column_vectors_rejected {α : Type} (st : Store α) (n : Str) (m : Matrix α)
    (hm : lookup st.mats n = some m) (hp : ProperStore st) (hr : m.nrows ≠ 1) :
    (m.ncols = 1 → freshAnswer st (.doubles1D n) = .exception) ∧
    (m.ncols ≠ 1 → freshAnswer st (.doubles1D n) = .vector (m.vals.flatten.take m.nrows)) := by
  obtain ⟨p1, p2, p3⟩ := hp n m hm
  constructor
  · intro hc
    simp [freshAnswer, readStep, hm, length1D, hr, hc]
  · intro hc
    have : m.nrows ≤ m.vals.flatten.length := by rw [p3]; exact Nat.le_mul_of_pos_right _ p2
    simp only [freshAnswer, readStep, hm, length1D, if_neg hr, if_pos hc, List.not_mem_nil, if_false,
      if_pos this]

/-- A history mixing harmless reads of one matrix with a releasing read of another. -/
example : readAll ⟨[(['a'], ⟨1, 1, [[(5 : Int)]]⟩), (['b'], ⟨1, 2, [[6, 7]]⟩)], [(['s'], [104])]⟩ []
    [.doubles ['b'], .scalar ['a'], .doubles1D ['b'], .str ['s'], .list ['b']] =
    [.matrix ⟨1, 2, [[6, 7]]⟩, .number 5, .vector [6, 7], .text [104], .vector [6, 7]] := by decide

end Softlib
