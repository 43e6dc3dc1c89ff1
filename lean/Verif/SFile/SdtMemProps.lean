/-
C101: SDT files of any contents.

Source: /repo/src/SFile/SFile_SDT.load.cpp 17-86.
-/
import Verif.SFile.SdtMemModel
import Verif.SFile.SdtProps

namespace Softlib

open Config SFile

variable {α : Type}

/-! ### What the file says -/

/-- A line that announces a matrix with these dimensions. -/
def MatrixHeader (l name : Str) (nrows ncols : Nat) : Prop :=
  ∃ r1 r2 r3 r4, readWord l = some ("@matrix".toList, r1) ∧ readWord r1 = some (name, r2) ∧
    readSize r2 = some (nrows, r3) ∧ readSize r3 = some (ncols, r4)

/-- A line that announces a string. -/
def StringHeader (l : Str) : Prop :=
  ∃ r1 r2 r3 name n, readWord l = some ("@string".toList, r1) ∧ readWord r1 = some (name, r2) ∧ readSize r2 = some (n, r3)

/-- The lines begin with at least `m` numbers, counted row by row. -/
def Begins (c : Codec α) (ncols : Nat) (ls : List Str) (m : Nat) : Prop :=
  (readRows c ncols (m / ncols) ls).isSome = true ∧
  (readRow c (m % ncols) ((ls.drop (m / ncols)).headD [])).isSome = true

/-- One line or variable is read without complaint. -/
inductive Passes (c : Codec α) (avail : Nat → Bool) : List Str → List Str → Prop
  | blank (rest : List Str) : Passes c avail ([] :: rest) rest
  | string (l : Str) (rest : List Str) : l ≠ [] → StringHeader l → Passes c avail (l :: rest) (rest.drop 1)
  | matrix (l name : Str) (nrows ncols : Nat) (rest : List Str) : l ≠ [] → MatrixHeader l name nrows ncols → 0 < nrows →
      nrows * ncols < 2 ^ 64 → avail nrows = true → avail (nrows * ncols) = true →
      (readRows c ncols nrows rest).isSome = true → Passes c avail (l :: rest) (rest.drop nrows)

/-- The lines left after some of them have been read without complaint. -/
inductive Left (c : Codec α) (avail : Nat → Bool) : List Str → List Str → Prop
  | here (ls : List Str) : Left c avail ls ls
  | step (a b ls : List Str) : Passes c avail a b → Left c avail b ls → Left c avail a ls

/-- The next variable is a matrix that is written outside of its array: it has no rows, or the number
of its elements does not fit in 64 bits and the file goes on long enough. -/
def Overruns (c : Codec α) (avail : Nat → Bool) (ls : List Str) : Prop :=
  ∃ l name nrows ncols rest, ls = l :: rest ∧ l ≠ [] ∧ MatrixHeader l name nrows ncols ∧ avail nrows = true ∧
    (nrows = 0 ∨ avail (nrows * ncols % 2 ^ 64) = true ∧ 2 ^ 64 ≤ nrows * ncols ∧
      Begins c ncols rest (nrows * ncols % 2 ^ 64))

/-- The next variable is a matrix for which there is no memory. -/
def Starves (avail : Nat → Bool) (ls : List Str) : Prop :=
  ∃ l name nrows ncols rest, ls = l :: rest ∧ l ≠ [] ∧ MatrixHeader l name nrows ncols ∧
    (avail nrows = false ∨ 0 < nrows ∧ avail (nrows * ncols % 2 ^ 64) = false)

/-! ### Filling -/

theorem fillRow_spec (c : Codec α) (T : Nat) : ∀ (n k : Nat) (s : Str), k ≤ T →
    (k + n ≤ T → fillRow c T k n s = (match readRow c n s with | some l => .ok l | none => .error)) ∧
    (T < k + n → fillRow c T k n s = (match readRow c (T - k) s with | some _ => .ub | none => .error))
  | 0, k, s, hk => ⟨fun _ => rfl, fun h => by omega⟩
  | n + 1, k, s, hk => by
    constructor
    · intro h
      rw [fillRow, if_pos (by omega), readRow]
      cases hr : c.read s with
      | none => rfl
      | some xr =>
        obtain ⟨x, r⟩ := xr
        dsimp only
        rw [(fillRow_spec c T n (k + 1) r (by omega)).1 (by omega)]
        cases readRow c n r <;> rfl
    · intro h
      rw [fillRow]
      by_cases hlt : k < T
      · rw [if_pos hlt]
        have e : T - k = (T - (k + 1)) + 1 := by omega
        rw [e, readRow]
        cases hr : c.read s with
        | none => rfl
        | some xr =>
          obtain ⟨x, r⟩ := xr
          dsimp only
          rw [(fillRow_spec c T n (k + 1) r (by omega)).2 (by omega)]
          cases readRow c (T - (k + 1)) r <;> rfl
      · rw [if_neg hlt, show T - k = 0 by omega]
        rfl

theorem fillRows_fit (c : Codec α) (T ncols : Nat) : ∀ (n k : Nat) (ls : List Str), k + n * ncols ≤ T →
    fillRows c T ncols k n ls = (match readRows c ncols n ls with | some l => .ok l | none => .error)
  | 0, _, _, _ => rfl
  | n + 1, k, ls, h => by
    have e : (n + 1) * ncols = n * ncols + ncols := by rw [Nat.succ_mul]
    rw [e] at h
    generalize hg : n * ncols = g at h
    rw [fillRows, if_neg (by omega), readRows, (fillRow_spec c T ncols k _ (by omega)).1 (by omega)]
    cases readRow c ncols (ls.headD []) with
    | none => rfl
    | some row =>
      dsimp only
      rw [fillRows_fit c T ncols n (k + ncols) ls.tail (by omega)]
      cases readRows c ncols n ls.tail <;> rfl

theorem fillRows_over (c : Codec α) (T ncols : Nat) : ∀ (n k : Nat) (ls : List Str), k ≤ T → T < k + n * ncols →
    (fillRows c T ncols k n ls = .ub ∧ Begins c ncols ls (T - k)) ∨
    (fillRows c T ncols k n ls = .error ∧ ¬ Begins c ncols ls (T - k))
  | 0, k, ls, hk, h => by omega
  | n + 1, k, ls, hk, h => by
    have e : (n + 1) * ncols = n * ncols + ncols := by rw [Nat.succ_mul]
    rw [e] at h
    rw [fillRows, if_neg (by omega)]
    by_cases hrow : T < k + ncols
    · rw [(fillRow_spec c T ncols k _ hk).2 hrow]
      have e1 : (T - k) / ncols = 0 := Nat.div_eq_of_lt (by omega)
      have e2 : (T - k) % ncols = T - k := Nat.mod_eq_of_lt (by omega)
      unfold Begins
      rw [e1, e2, List.drop_zero]
      cases readRow c (T - k) (ls.headD []) with
      | none => exact .inr ⟨rfl, fun hb => by cases hb.2⟩
      | some row => exact .inl ⟨rfl, rfl, rfl⟩
    · have hpos : 0 < ncols := by
        rcases Nat.eq_zero_or_pos ncols with h0 | h0
        · subst h0; simp at h; omega
        · exact h0
      rw [(fillRow_spec c T ncols k _ hk).1 (by omega)]
      have e0 : T - k = (T - (k + ncols)) + ncols := by omega
      have hq : (T - k) / ncols = (T - (k + ncols)) / ncols + 1 := by
        rw [e0, Nat.add_div_right _ hpos]
      have hm : (T - k) % ncols = (T - (k + ncols)) % ncols := by
        rw [e0, Nat.add_mod_right]
      have hd : ls.drop ((T - (k + ncols)) / ncols + 1) = ls.tail.drop ((T - (k + ncols)) / ncols) := by
        rw [List.drop_tail]
      unfold Begins
      rw [hq, hm, hd, readRows]
      cases readRow c ncols (ls.headD []) with
      | none => exact .inr ⟨rfl, fun hb => by cases hb.1⟩
      | some row =>
        dsimp only
        rcases fillRows_over c T ncols n (k + ncols) ls.tail (by omega) (by omega) with ⟨h1, h2⟩ | ⟨h1, h2⟩
        · rw [h1]
          exact .inl ⟨rfl, by rw [Option.isSome_map]; exact h2.1, h2.2⟩
        · rw [h1]
          exact .inr ⟨rfl, fun hb => h2 ⟨by rw [Option.isSome_map] at hb; exact hb.1, hb.2⟩⟩

theorem loadMatrix_ub (c : Codec α) (avail : Nat → Bool) (nrows ncols : Nat) (rest : List Str) :
    loadMatrix c avail nrows ncols rest = .ub ↔ avail nrows = true ∧
      (nrows = 0 ∨ avail (nrows * ncols % 2 ^ 64) = true ∧ 2 ^ 64 ≤ nrows * ncols ∧
        Begins c ncols rest (nrows * ncols % 2 ^ 64)) := by
  unfold loadMatrix
  cases ha : avail nrows with
  | false => simp
  | true =>
    by_cases h0 : nrows = 0
    · simp [h0]
    · simp only [if_neg h0, h0, false_or, true_and]
      generalize hT : nrows * ncols % 2 ^ 64 = T
      cases hb : avail T with
      | false => simp
      | true =>
        simp only [true_and]
        by_cases hw : 2 ^ 64 ≤ nrows * ncols
        · have hlt : T < 0 + nrows * ncols := by
            have := Nat.mod_lt (nrows * ncols) (show 0 < 2 ^ 64 by decide)
            omega
          rcases fillRows_over c T ncols nrows 0 rest (by omega) hlt with ⟨h1, h2⟩ | ⟨h1, h2⟩
          · rw [h1]; exact ⟨fun _ => ⟨hw, h2⟩, fun _ => rfl⟩
          · rw [h1]; exact ⟨fun h => (by cases h), fun h => absurd h.2 h2⟩
        · have e : T = nrows * ncols := by rw [← hT]; exact Nat.mod_eq_of_lt (by omega)
          rw [fillRows_fit c T ncols nrows 0 rest (by omega)]
          constructor
          · intro h
            cases hr : readRows c ncols nrows rest <;> rw [hr] at h <;> cases h
          · intro h; exact absurd h.1 hw

theorem loadMatrix_ok (c : Codec α) (avail : Nat → Bool) (nrows ncols : Nat) (rest : List Str) (m : Matrix α) :
    loadMatrix c avail nrows ncols rest = .ok m ↔ avail nrows = true ∧ 0 < nrows ∧ nrows * ncols < 2 ^ 64 ∧
      avail (nrows * ncols) = true ∧ ∃ v, readRows c ncols nrows rest = some v ∧ m = ⟨nrows, ncols, v⟩ := by
  unfold loadMatrix
  cases ha : avail nrows with
  | false => simp
  | true =>
    by_cases h0 : nrows = 0
    · simp [h0]
    · simp only [if_neg h0, true_and]
      by_cases hw : 2 ^ 64 ≤ nrows * ncols
      · constructor
        · intro h
          exfalso
          generalize hT : nrows * ncols % 2 ^ 64 = T at h
          have hlt : T < 0 + nrows * ncols := by
            have := Nat.mod_lt (nrows * ncols) (show 0 < 2 ^ 64 by decide)
            omega
          cases hb : avail T with
          | false => rw [hb] at h; cases h
          | true =>
            rw [hb] at h
            rcases fillRows_over c T ncols nrows 0 rest (by omega) hlt with ⟨h1, h2⟩ | ⟨h1, h2⟩ <;>
              · dsimp only at h; rw [h1] at h; cases h
        · intro h; omega
      · have e : nrows * ncols % 2 ^ 64 = nrows * ncols := Nat.mod_eq_of_lt (by omega)
        rw [e]
        cases hb : avail (nrows * ncols) with
        | false => simp
        | true =>
          dsimp only
          rw [fillRows_fit c (nrows * ncols) ncols nrows 0 rest (by omega)]
          constructor
          · intro h
            refine ⟨by omega, by omega, rfl, ?_⟩
            cases hr : readRows c ncols nrows rest with
            | none => rw [hr] at h; cases h
            | some v => rw [hr] at h; cases h; exact ⟨v, rfl, rfl⟩
          · rintro ⟨_, _, _, v, hv, rfl⟩
            rw [hv]

theorem loadMatrix_badAlloc (c : Codec α) (avail : Nat → Bool) (nrows ncols : Nat) (rest : List Str) :
    loadMatrix c avail nrows ncols rest = .badAlloc ↔
      (avail nrows = false ∨ 0 < nrows ∧ avail (nrows * ncols % 2 ^ 64) = false) := by
  unfold loadMatrix
  cases ha : avail nrows with
  | false => simp
  | true =>
    by_cases h0 : nrows = 0
    · simp [h0]
    · have hp : 0 < nrows := by omega
      simp only [if_neg h0, hp, true_and]
      cases hb : avail (nrows * ncols % 2 ^ 64) with
      | false => simp
      | true =>
        dsimp only
        cases hf : fillRows c (nrows * ncols % 2 ^ 64) ncols 0 nrows rest <;> simp

/-! ### The whole file -/

theorem loadMem_matrix (c : Codec α) (avail : Nat → Bool) {l name : Str} {nrows ncols : Nat} (rest : List Str) (st : Store α)
    (hl : l ≠ []) (h : MatrixHeader l name nrows ncols) :
    loadMem c avail (l :: rest) st =
      (match loadMatrix c avail nrows ncols rest with
       | .ok m => loadMem c avail (rest.drop nrows) ⟨emplace st.mats name m, st.strs⟩
       | .error => .error
       | .badAlloc => .badAlloc
       | .ub => .ub) := by
  obtain ⟨r1, r2, r3, r4, h1, h2, h3, h4⟩ := h
  rw [loadMem, if_neg hl, h1]
  dsimp only
  rw [if_pos rfl, h2]
  dsimp only
  rw [h3]
  dsimp only
  rw [h4]
  dsimp only
  cases loadMatrix c avail nrows ncols rest <;> rfl

theorem loadMem_passes (c : Codec α) (avail : Nat → Bool) {a b : List Str} (h : Passes c avail a b) (st : Store α) :
    ∃ st', loadMem c avail a st = loadMem c avail b st' := by
  cases h with
  | blank => exact ⟨st, by rw [loadMem, if_pos rfl]⟩
  | string l rest hl h =>
    obtain ⟨r1, r2, r3, name, n, h1, h2, h3⟩ := h
    refine ⟨⟨st.mats, emplace st.strs name (readBytes (rest.headD []))⟩, ?_⟩
    rw [loadMem, if_neg hl, h1]
    dsimp only
    rw [if_neg (by decide), if_pos rfl, h2]
    dsimp only
    rw [h3]
  | matrix l name nrows ncols rest hl h hn hw ha hb hr =>
    obtain ⟨v, hv⟩ := Option.isSome_iff_exists.1 hr
    refine ⟨⟨emplace st.mats name ⟨nrows, ncols, v⟩, st.strs⟩, ?_⟩
    rw [loadMem_matrix c avail rest st hl h, (loadMatrix_ok c avail nrows ncols rest _).2 ⟨ha, hn, hw, hb, v, hv, rfl⟩]

/-- Every line is passed, is the end, or stops the loader. -/
theorem loadMem_cases (c : Codec α) (avail : Nat → Bool) (l : Str) (rest : List Str) (st : Store α) :
    (∃ b st', Passes c avail (l :: rest) b ∧ b.length ≤ rest.length ∧ loadMem c avail (l :: rest) st = loadMem c avail b st' ∧
      (∀ st'', loadLines c b st' = .ok st'' → loadLines c (l :: rest) st = .ok st'')) ∨
    loadMem c avail (l :: rest) st = .error ∨ (loadMem c avail (l :: rest) st = .badAlloc ∧ Starves avail (l :: rest)) ∨
    (loadMem c avail (l :: rest) st = .ub ∧ Overruns c avail (l :: rest)) := by
  by_cases hl : l = []
  · subst hl
    refine .inl ⟨rest, st, .blank rest, Nat.le_refl _, by rw [loadMem, if_pos rfl], ?_⟩
    intro st'' h
    rw [loadLines, if_pos rfl]
    exact h
  · rw [loadMem, if_neg hl]
    cases h1 : readWord l with
    | none => exact .inr (.inl rfl)
    | some tr =>
      obtain ⟨ty, r1⟩ := tr
      dsimp only
      by_cases ht : ty = "@matrix".toList
      · subst ht
        rw [if_pos rfl]
        cases h2 : readWord r1 with
        | none => exact .inr (.inl rfl)
        | some nr =>
          obtain ⟨name, r2⟩ := nr
          dsimp only
          cases h3 : readSize r2 with
          | none => exact .inr (.inl rfl)
          | some q =>
            obtain ⟨nrows, r3⟩ := q
            dsimp only
            cases h4 : readSize r3 with
            | none => exact .inr (.inl rfl)
            | some q =>
              obtain ⟨ncols, r4⟩ := q
              dsimp only
              have hh : MatrixHeader l name nrows ncols := ⟨r1, r2, r3, r4, h1, h2, h3, h4⟩
              cases hm : loadMatrix c avail nrows ncols rest with
              | ok m =>
                obtain ⟨ha, hn, hw, hb, v, hv, rfl⟩ := (loadMatrix_ok c avail nrows ncols rest m).1 hm
                refine .inl ⟨rest.drop nrows, _, .matrix l name nrows ncols rest hl hh hn hw ha hb (by rw [hv]; rfl),
                  by rw [List.length_drop]; omega, rfl, ?_⟩
                intro st'' h
                rw [loadLines, if_neg hl, h1]
                dsimp only
                rw [if_pos rfl, h2]
                dsimp only
                rw [h3]
                dsimp only
                rw [h4]
                dsimp only
                rw [if_neg (by omega), hv]
                exact h
              | error => exact .inr (.inl rfl)
              | badAlloc =>
                exact .inr (.inr (.inl ⟨rfl, l, name, nrows, ncols, rest, rfl, hl, hh,
                  (loadMatrix_badAlloc c avail nrows ncols rest).1 hm⟩))
              | ub =>
                obtain ⟨ha, hu⟩ := (loadMatrix_ub c avail nrows ncols rest).1 hm
                exact .inr (.inr (.inr ⟨rfl, l, name, nrows, ncols, rest, rfl, hl, hh, ha, hu⟩))
      · rw [if_neg ht]
        by_cases hs : ty = "@string".toList
        · subst hs
          rw [if_pos rfl]
          cases h2 : readWord r1 with
          | none => exact .inr (.inl rfl)
          | some nr =>
            obtain ⟨name, r2⟩ := nr
            dsimp only
            cases h3 : readSize r2 with
            | none => exact .inr (.inl rfl)
            | some q =>
              obtain ⟨n, r3⟩ := q
              refine .inl ⟨rest.drop 1, _, .string l rest hl ⟨r1, r2, r3, name, n, h1, h2, h3⟩,
                by rw [List.length_drop]; omega, rfl, ?_⟩
              intro st'' h
              rw [loadLines, if_neg hl, h1]
              dsimp only
              rw [if_neg (by decide), if_pos rfl, h2]
              dsimp only
              rw [h3]
              exact h
        · rw [if_neg hs]
          exact .inr (.inl rfl)

/-- C101, when opening is undefined: exactly if, after variables that are read without complaint, there
is a matrix without rows, or one whose number of elements does not fit in 64 bits and for which the file
holds as many numbers as the array that is made for it. -/
theorem C101_undefined_iff (c : Codec α) (avail : Nat → Bool) (text : Str) :
    openMem c avail text = .ub ↔ ∃ ls, Left c avail (lines text) ls ∧ Overruns c avail ls := by
  have key : ∀ (n : Nat) (ls : List Str) (st : Store α), ls.length ≤ n → loadMem c avail ls st = .ub →
      ∃ ls', Left c avail ls ls' ∧ Overruns c avail ls' := by
    intro n
    induction n with
    | zero =>
      intro ls st hn h
      have : ls = [] := List.length_eq_zero_iff.1 (by omega)
      subst this
      rw [loadMem] at h
      cases h
    | succ n ih =>
      intro ls st hn h
      cases ls with
      | nil => rw [loadMem] at h; cases h
      | cons l rest =>
        rcases loadMem_cases c avail l rest st with ⟨b, st', hp, hb, he, -⟩ | he | ⟨he, hst⟩ | ⟨he, ho⟩
        · rw [he] at h
          obtain ⟨ls', hl, ho⟩ := ih b st' (by simp at hn; omega) h
          exact ⟨ls', .step _ _ _ hp hl, ho⟩
        · rw [he] at h; cases h
        · rw [he] at h; cases h
        · exact ⟨_, .here _, ho⟩
  constructor
  · exact key _ _ _ (Nat.le_refl _)
  · rintro ⟨ls, hl, ho⟩
    unfold openMem
    generalize (⟨[], []⟩ : Store α) = st
    generalize lines text = t at hl
    induction hl generalizing st with
    | here =>
      obtain ⟨l, name, nrows, ncols, rest, rfl, hne, hh, ha, hu⟩ := ho
      rw [loadMem_matrix c avail rest st hne hh, (loadMatrix_ub c avail nrows ncols rest).2 ⟨ha, hu⟩]
    | step a b ls hp _ ih =>
      obtain ⟨st', he⟩ := loadMem_passes c avail hp st
      rw [he]
      exact ih ho st'

/-- C101, when another exception than the library's is thrown: exactly if, after variables that are read
without complaint, there is a matrix for which there is no memory. -/
theorem C101_starved_iff (c : Codec α) (avail : Nat → Bool) (text : Str) :
    openMem c avail text = .badAlloc ↔ ∃ ls, Left c avail (lines text) ls ∧ Starves avail ls := by
  have key : ∀ (n : Nat) (ls : List Str) (st : Store α), ls.length ≤ n → loadMem c avail ls st = .badAlloc →
      ∃ ls', Left c avail ls ls' ∧ Starves avail ls' := by
    intro n
    induction n with
    | zero =>
      intro ls st hn h
      have : ls = [] := List.length_eq_zero_iff.1 (by omega)
      subst this
      rw [loadMem] at h
      cases h
    | succ n ih =>
      intro ls st hn h
      cases ls with
      | nil => rw [loadMem] at h; cases h
      | cons l rest =>
        rcases loadMem_cases c avail l rest st with ⟨b, st', hp, hb, he, -⟩ | he | ⟨he, hst⟩ | ⟨he, ho⟩
        · rw [he] at h
          obtain ⟨ls', hl, ho⟩ := ih b st' (by simp at hn; omega) h
          exact ⟨ls', .step _ _ _ hp hl, ho⟩
        · rw [he] at h; cases h
        · exact ⟨_, .here _, hst⟩
        · rw [he] at h; cases h
  constructor
  · exact key _ _ _ (Nat.le_refl _)
  · rintro ⟨ls, hl, ho⟩
    unfold openMem
    generalize (⟨[], []⟩ : Store α) = st
    generalize lines text = t at hl
    induction hl generalizing st with
    | here =>
      obtain ⟨l, name, nrows, ncols, rest, rfl, hne, hh, hu⟩ := ho
      rw [loadMem_matrix c avail rest st hne hh, (loadMatrix_badAlloc c avail nrows ncols rest).2 hu]
    | step a b ls hp _ ih =>
      obtain ⟨st', he⟩ := loadMem_passes c avail hp st
      rw [he]
      exact ih ho st'

/-- C101: nothing is misread.  A file that opens has the variables that `C22` and `C23` speak of, whatever
it contains. -/
theorem C101_not_misread (c : Codec α) (avail : Nat → Bool) (text : Str) (st : Store α) (h : openMem c avail text = .ok st) :
    openRead c text = .ok st := by
  have key : ∀ (n : Nat) (ls : List Str) (s : Store α), ls.length ≤ n → loadMem c avail ls s = .ok st → loadLines c ls s = .ok st := by
    intro n
    induction n with
    | zero =>
      intro ls s hn h
      have : ls = [] := List.length_eq_zero_iff.1 (by omega)
      subst this
      rw [loadMem] at h
      cases h
      rw [loadLines]
    | succ n ih =>
      intro ls s hn h
      cases ls with
      | nil => rw [loadMem] at h; cases h; rw [loadLines]
      | cons l rest =>
        rcases loadMem_cases c avail l rest s with ⟨b, st', hp, hb, he, hk⟩ | he | ⟨he, hst⟩ | ⟨he, ho⟩
        · rw [he] at h
          exact hk _ (ih b st' (by simp at hn; omega) h)
        · rw [he] at h; cases h
        · rw [he] at h; cases h
        · rw [he] at h; cases h
  exact key _ _ _ (Nat.le_refl _) h

/-- C101: when a file opens: exactly if all of it can be read. -/
theorem C101_opens_iff (c : Codec α) (avail : Nat → Bool) (text : Str) :
    (∃ st, openMem c avail text = .ok st) ↔ Left c avail (lines text) [] := by
  have key : ∀ (n : Nat) (ls : List Str) (s st : Store α), ls.length ≤ n → loadMem c avail ls s = .ok st → Left c avail ls [] := by
    intro n
    induction n with
    | zero =>
      intro ls s st hn h
      have : ls = [] := List.length_eq_zero_iff.1 (by omega)
      subst this
      exact .here _
    | succ n ih =>
      intro ls s st hn h
      cases ls with
      | nil => exact .here _
      | cons l rest =>
        rcases loadMem_cases c avail l rest s with ⟨b, st', hp, hb, he, hk⟩ | he | ⟨he, hst⟩ | ⟨he, ho⟩
        · rw [he] at h
          exact .step _ _ _ hp (ih b st' st (by simp at hn; omega) h)
        · rw [he] at h; cases h
        · rw [he] at h; cases h
        · rw [he] at h; cases h
  constructor
  · rintro ⟨st, h⟩
    exact key _ _ _ st (Nat.le_refl _) h
  · intro hl
    unfold openMem
    generalize (⟨[], []⟩ : Store α) = st
    generalize lines text = t at hl
    generalize he : ([] : List Str) = e at hl
    induction hl generalizing st with
    | here => subst he; exact ⟨st, by rw [loadMem]⟩
    | step a b ls hp _ ih =>
      obtain ⟨st', hs⟩ := loadMem_passes c avail hp st
      rw [hs]
      exact ih st' he

/-- C101, what holds instead: if all matrices announced in the file have a row and fit in 64 bits, and
memory is granted, the file is opened or rejected with the library's exception.  Missing: the other
files (`C101_refuted_no_rows`, `C101_refuted_overflow`, `C101_refuted_allocation`). -/
theorem C101_safe_partial (c : Codec α) (avail : Nat → Bool) (text : Str)
    (h : ∀ l ∈ lines text, ∀ name nrows ncols, MatrixHeader l name nrows ncols → 0 < nrows ∧ nrows * ncols < 2 ^ 64 ∧
      avail nrows = true ∧ avail (nrows * ncols) = true) :
    (∃ st, openMem c avail text = .ok st) ∨ openMem c avail text = .error := by
  have key : ∀ (n : Nat) (ls : List Str) (s : Store α), ls.length ≤ n → (∀ l ∈ ls, l ∈ lines text) →
      (∃ st, loadMem c avail ls s = .ok st) ∨ loadMem c avail ls s = .error := by
    intro n
    induction n with
    | zero =>
      intro ls s hn _
      have : ls = [] := List.length_eq_zero_iff.1 (by omega)
      subst this
      exact .inl ⟨s, by rw [loadMem]⟩
    | succ n ih =>
      intro ls s hn hs
      cases ls with
      | nil => exact .inl ⟨s, by rw [loadMem]⟩
      | cons l rest =>
        by_cases hm : ∃ name nrows ncols, l ≠ [] ∧ MatrixHeader l name nrows ncols
        · obtain ⟨name, nrows, ncols, hl, hh⟩ := hm
          obtain ⟨h1, h2, h3, h4⟩ := h l (hs l (by simp)) name nrows ncols hh
          rw [loadMem_matrix c avail rest s hl hh]
          have hub := loadMatrix_ub c avail nrows ncols rest
          cases hx : loadMatrix c avail nrows ncols rest with
          | ok m =>
            exact ih _ _ (by rw [List.length_drop]; simp at hn; omega)
              (fun x hx => hs x (List.mem_cons_of_mem _ (List.mem_of_mem_drop hx)))
          | error => exact .inr rfl
          | badAlloc =>
            exfalso
            unfold loadMatrix at hx
            rw [h3] at hx
            dsimp only at hx
            rw [if_neg (by omega), Nat.mod_eq_of_lt h2, h4] at hx
            dsimp only at hx
            cases hf : fillRows c (nrows * ncols) ncols 0 nrows rest <;> rw [hf] at hx <;> cases hx
          | ub =>
            obtain ⟨-, hz | ⟨-, hz, -⟩⟩ := hub.1 hx <;> omega
        · rcases loadMem_cases c avail l rest s with ⟨b, st', hp, hb, he, -⟩ | he | ⟨he, hst⟩ | ⟨he, ho⟩
          · rw [he]
            refine ih b st' (by simp at hn; omega) ?_
            cases hp with
            | blank => exact fun x hx => hs x (List.mem_cons_of_mem _ hx)
            | string => exact fun x hx => hs x (List.mem_cons_of_mem _ (List.mem_of_mem_drop hx))
            | matrix => exact fun x hx => hs x (List.mem_cons_of_mem _ (List.mem_of_mem_drop hx))
          · exact .inr he
          · obtain ⟨l', name, nrows, ncols, rest', e, hne, hh, -⟩ := hst
            cases e
            exact absurd ⟨name, nrows, ncols, hne, hh⟩ hm
          · obtain ⟨l', name, nrows, ncols, rest', e, hne, hh, -⟩ := ho
            cases e
            exact absurd ⟨name, nrows, ncols, hne, hh⟩ hm
  exact key _ _ _ (Nat.le_refl _) (fun _ h => h)

/-! ### Sizes as they are written -/

/-- C101: a size is read as a number modulo 2^64: after a minus sign, as the negative number. -/
theorem C101_sizes {ws rest : Str} (n : Nat) (hws : ∀ c ∈ ws, isSpaceC c = true)
    (hr : rest = [] ∨ ∃ r, rest = ' ' :: r) :
    (n < 2 ^ 64 → readSize (ws ++ natText n ++ rest) = some (n, rest)) ∧
    (n < 2 ^ 64 → readSize (ws ++ '-' :: natText n ++ rest) = some (if n = 0 then 0 else 2 ^ 64 - n, rest)) ∧
    (2 ^ 64 ≤ n → readSize (ws ++ natText n ++ rest) = none ∧ readSize (ws ++ '-' :: natText n ++ rest) = none) := by
  obtain ⟨h1, h2, h3⟩ := natText_digits n
  have hw : Written (ws ++ natText n) false (natText n) :=
    ⟨ws, [], by simp, hws, .inl rfl, rfl, h1, h2⟩
  have hm : Written (ws ++ '-' :: natText n) true (natText n) :=
    ⟨ws, ['-'], by simp, hws, .inr (.inr rfl), rfl, h1, h2⟩
  refine ⟨fun h => readSize_text n hws hr h, fun h => ?_, fun h => ⟨?_, ?_⟩⟩
  · simp only [readSize, intPrefix_of_written hm (space_not_digit hr), h3, if_pos h, if_true]
    rw [List.drop_left]
    by_cases h0 : n = 0
    · rw [if_pos h0, h0]
    · rw [if_neg h0, Nat.mod_eq_of_lt (by omega)]
  · simp only [readSize, intPrefix_of_written hw (space_not_digit hr), h3, if_neg (show ¬ n < 2 ^ 64 by omega)]
  · simp only [readSize, intPrefix_of_written hm (space_not_digit hr), h3, if_neg (show ¬ n < 2 ^ 64 by omega)]

/-- C101 is false: a matrix without rows. -/
theorem C101_refuted_no_rows (c : Codec α) (avail : Nat → Bool) (h : avail 0 = true) :
    openMem c avail "@matrix x 0 3".toList = .ub := by
  refine (C101_undefined_iff c avail _).2 ⟨_, .here _, "@matrix x 0 3".toList, ['x'], 0, 3, [], by decide, by decide, ?_, h, .inl rfl⟩
  exact ⟨" x 0 3".toList, " 0 3".toList, " 3".toList, [], by decide, by decide, by decide, by decide⟩

/-- C101 is false: two rows of 2^63 numbers need no memory at all by the calculation of the code, and the
first number is written outside of the empty array. -/
theorem C101_refuted_overflow (c : Codec α) (avail : Nat → Bool) (h2 : avail 2 = true) (h0 : avail 0 = true) :
    openMem c avail "@matrix x 2 9223372036854775808\n1\n".toList = .ub := by
  refine (C101_undefined_iff c avail _).2 ⟨_, .here _, "@matrix x 2 9223372036854775808".toList, ['x'], 2, 9223372036854775808,
    ["1".toList], by decide, by decide, ?_, h2, .inr ⟨h0, by decide, rfl, rfl⟩⟩
  exact ⟨" x 2 9223372036854775808".toList, " 2 9223372036854775808".toList, " 9223372036854775808".toList, [], by decide, by decide, by decide, by decide⟩

/-- C101 is false: a negative number of rows is a huge one, for which memory is asked before anything is
checked, and the exception is not the library's. -/
theorem C101_refuted_allocation (c : Codec α) (avail : Nat → Bool) (h : avail (2 ^ 64 - 1) = false) :
    openMem c avail "@matrix x -1 1\n1\n".toList = .badAlloc := by
  refine (C101_starved_iff c avail _).2 ⟨_, .here _, "@matrix x -1 1".toList, ['x'], 2 ^ 64 - 1, 1,
    ["1".toList], by decide, by decide, ?_, .inl h⟩
  exact ⟨" x -1 1".toList, " -1 1".toList, " 1".toList, [], by decide, by decide, by decide, by decide⟩

/-- The hypotheses can be met, and the file that is meant opens. -/
example : ∃ st, openMem integerCodec (fun n => decide (n < 2 ^ 40)) "@matrix x 1 2\n5 6\n".toList = .ok st := by
  refine (C101_opens_iff _ _ _).2 (.step _ _ _ (.matrix "@matrix x 1 2".toList ['x'] 1 2 ["5 6".toList] (by decide)
    ⟨" x 1 2".toList, " 1 2".toList, " 2".toList, [], by decide, by decide, by decide, by decide⟩ (by decide) (by decide) (by decide) (by decide)
    (by decide)) (.here _))

end Softlib
