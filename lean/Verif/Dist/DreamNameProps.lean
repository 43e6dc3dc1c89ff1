/-
The distribution and the momentum grid taken from DREAM output (C112).  Model: DreamNameModel.lean.
-/
import Verif.Dist.DreamNameModel

namespace Softlib

open Softlib.Dist.Dream

/-- The variable meant by a name: a full path as it is, otherwise a variable of the equation system. -/
def fullName (distname : List Char) : List Char := if distname.head? = some '/' then distname else "/eqsys/".toList ++ distname

theorem drop_eq_suffix (s t : List Char) : s.drop (s.length - t.length) = t ↔ t <:+ s := by
  rw [List.suffix_iff_eq_drop]; exact eq_comm

/-- What is decided from the end of the name. -/
theorem momGrid_spec (s : List Char) :
    momGrid s =
      if s.length < 4 then .outOfRange
      else if "f_re".toList <:+ s then .ok s "/grid/runaway".toList
      else if s.length < 5 then .outOfRange
      else if "f_hot".toList <:+ s then .ok s "/grid/hottail".toList
      else .throws := by
  have d1 : s.drop (s.length - 4) = fRe ↔ "f_re".toList <:+ s := drop_eq_suffix s fRe
  have d2 : s.drop (s.length - 5) = fHot ↔ "f_hot".toList <:+ s := drop_eq_suffix s fHot
  have hrg : runawayGrid = "/grid/runaway".toList := rfl
  have hhg : hottailGrid = "/grid/hottail".toList := rfl
  unfold momGrid substrEnd
  rw [hrg, hhg]
  by_cases h4 : s.length < 4
  · rw [if_pos h4, if_pos h4]
  · rw [if_neg h4, if_neg h4]
    simp only [d1]
    by_cases h1 : "f_re".toList <:+ s
    · rw [if_pos h1, if_pos h1]
    · rw [if_neg h1, if_neg h1]
      by_cases h5 : s.length < 5
      · rw [if_pos h5, if_pos h5]
      · rw [if_neg h5, if_neg h5]
        simp only [d2]

theorem dreamName_cons (has : List Char → Bool) (n : List Char) (hn : n ≠ []) : dreamName has n = withGrid has (fullName n) := by
  cases n with
  | nil => exact absurd rfl hn
  | cons c r =>
    by_cases h : c = '/'
    · subst h; simp [dreamName, fullName]
    · have he : eqsys = "/eqsys/".toList := rfl
      simp [dreamName, fullName, h, he]

/-- **C112** Without a name the runaway distribution is taken if the file has it, otherwise the hot-tail distribution if the file has
that, each with its own momentum grid; otherwise there is an exception. -/
theorem C112_auto (has : List Char → Bool) :
    dreamName has [] =
      if has "/eqsys/f_re".toList then .ok "/eqsys/f_re".toList "/grid/runaway".toList
      else if has "/eqsys/f_hot".toList then .ok "/eqsys/f_hot".toList "/grid/hottail".toList
      else .throws := by
  have e1 : eqsys ++ fRe = "/eqsys/f_re".toList := rfl
  have e2 : eqsys ++ fHot = "/eqsys/f_hot".toList := rfl
  have m1 : momGrid "/eqsys/f_re".toList = .ok "/eqsys/f_re".toList "/grid/runaway".toList := by decide +kernel
  have m2 : momGrid "/eqsys/f_hot".toList = .ok "/eqsys/f_hot".toList "/grid/hottail".toList := by decide +kernel
  unfold dreamName withGrid
  simp only []
  rw [e1, e2, m1, m2]
  cases has "/eqsys/f_re".toList with
  | true => rfl
  | false => cases has "/eqsys/f_hot".toList <;> rfl

/-- **C112** A name is taken exactly if the variable exists and its name ends in `f_re` or `f_hot`, with the momentum grid of that
ending. -/
theorem C112_named (has : List Char → Bool) (n : List Char) (hn : n ≠ [])
    (v g : List Char) :
    dreamName has n = .ok v g ↔ v = fullName n ∧ has v = true ∧
      (("f_re".toList <:+ v ∧ g = "/grid/runaway".toList) ∨ ("f_hot".toList <:+ v ∧ g = "/grid/hottail".toList)) := by
  have noboth : ∀ s : List Char, "f_re".toList <:+ s → "f_hot".toList <:+ s → False := by
    rintro s ⟨a, ha⟩ ⟨b, hb⟩
    have h := congrArg List.getLast? (ha.trans hb.symm)
    simp at h
  have long : ∀ (s t : List Char), t <:+ s → t.length ≤ s.length := fun s t h => h.length_le
  rw [dreamName_cons has n hn]
  generalize fullName n = s at *
  unfold withGrid
  rw [momGrid_spec s]
  cases hs : has s with
  | false =>
    simp only [Bool.false_eq_true, if_false]
    constructor
    · intro h; cases h
    · rintro ⟨rfl, h, -⟩; rw [hs] at h; cases h
  | true =>
    simp only [if_true]
    by_cases h4 : s.length < 4
    · rw [if_pos h4]
      constructor
      · intro h; cases h
      · rintro ⟨rfl, -, h | h⟩
        · have := long _ _ h.1; simp at this; omega
        · have := long _ _ h.1; simp at this; omega
    · rw [if_neg h4]
      by_cases h1 : "f_re".toList <:+ s
      · rw [if_pos h1]
        constructor
        · intro h
          injection h with h h'
          subst h h'
          exact ⟨rfl, hs, Or.inl ⟨h1, rfl⟩⟩
        · rintro ⟨rfl, -, h | h⟩
          · rw [h.2]
          · exact absurd h.1 (fun h => noboth _ h1 h)
      · rw [if_neg h1]
        by_cases h5 : s.length < 5
        · rw [if_pos h5]
          constructor
          · intro h; cases h
          · rintro ⟨rfl, -, h | h⟩
            · exact absurd h.1 h1
            · have := long _ _ h.1; simp at this; omega
        · rw [if_neg h5]
          by_cases h2 : "f_hot".toList <:+ s
          · rw [if_pos h2]
            constructor
            · intro h
              injection h with h h'
              subst h h'
              exact ⟨rfl, hs, Or.inr ⟨h2, rfl⟩⟩
            · rintro ⟨rfl, -, h | h⟩
              · exact absurd h.1 h1
              · rw [h.2]
          · rw [if_neg h2]
            constructor
            · intro h; cases h
            · rintro ⟨rfl, -, h | h⟩
              · exact absurd h.1 h1
              · exact absurd h.1 h2

/-- **C112** (refuted) The reader fails with `std::out_of_range` instead of its own exception exactly for the names of variables of the
file that are full paths of at most four characters. -/
theorem C112_refuted (has : List Char → Bool) (n : List Char) :
    dreamName has n = .outOfRange ↔ n.head? = some '/' ∧ has n = true ∧ n.length ≤ 4 := by
  cases n with
  | nil =>
    rw [C112_auto]
    constructor
    · intro h
      split at h
      · cases h
      · split at h <;> cases h
    · rintro ⟨h, -⟩; cases h
  | cons c r =>
    rw [dreamName_cons has _ (by simp)]
    by_cases hc : c = '/'
    · subst hc
      have hf : fullName ('/' :: r) = '/' :: r := by simp [fullName]
      rw [hf]
      unfold withGrid
      rw [momGrid_spec _]
      have hno : ('/' :: r).length ≤ 4 → ¬ "f_re".toList <:+ '/' :: r := by
        rintro h ⟨a, ha⟩
        have h1 := congrArg List.length ha
        have h2 : a.length + 4 = ('/' :: r).length := by simpa using h1
        have h3 : a = [] := List.length_eq_zero_iff.mp (by omega)
        subst h3
        simp at ha
      cases hh : has ('/' :: r) with
      | false => simp
      | true =>
        simp only [if_true, List.head?_cons, true_and]
        by_cases h4 : ('/' :: r).length < 4
        · rw [if_pos h4]; exact ⟨fun _ => by omega, fun _ => rfl⟩
        · rw [if_neg h4]
          by_cases h5 : ('/' :: r).length < 5
          · rw [if_neg (hno (by omega)), if_pos h5]
            exact ⟨fun _ => by omega, fun _ => rfl⟩
          · rw [if_neg h5]
            constructor
            · intro h
              split at h
              · cases h
              · split at h <;> cases h
            · intro h; omega
    · have hf : fullName (c :: r) = "/eqsys/".toList ++ c :: r := by simp [fullName, hc]
      rw [hf]
      unfold withGrid
      rw [momGrid_spec _]
      have hlen : 5 ≤ ("/eqsys/".toList ++ c :: r).length := by simp
      rw [if_neg (show ¬ ("/eqsys/".toList ++ c :: r).length < 4 by omega), if_neg (show ¬ ("/eqsys/".toList ++ c :: r).length < 5 by omega)]
      constructor
      · intro h
        split at h
        · split at h
          · cases h
          · split at h <;> cases h
        · cases h
      · rintro ⟨h, -⟩
        simp at h
        exact absurd h hc

/-- **C112** (refuted) The ending alone decides: a variable `ref_re` of the equation system, whatever it is, is read on the runaway
grid. -/
theorem C112_refuted_ending : dreamName (fun _ => true) "ref_re".toList = .ok "/eqsys/ref_re".toList "/grid/runaway".toList ∧
    dreamName (fun _ => true) "/x".toList = .outOfRange := by decide +kernel

example : dreamName (fun s => s = "/eqsys/f_hot".toList) [] = .ok "/eqsys/f_hot".toList "/grid/hottail".toList ∧
    dreamName (fun s => s = "/eqsys/f_hot".toList) "f_re".toList = .throws ∧
    dreamName (fun s => s = "/eqsys/n_re".toList) "n_re".toList = .throws := by decide +kernel

end Softlib
