/-
C55: the radial search of the numeric and GO+CODE distribution functions.
-/
import Verif.Dist.NumericModel
import Mathlib.Tactic.Ring
import Mathlib.Tactic.Linarith
import Mathlib.Tactic.NormNum

namespace Softlib

open Dist

variable {K : Type} [Field K] [LinearOrder K]

theorem searchLoop_inc (g : List K) (x : K) :
    ∀ (n il iu : Nat), iu - il ≤ n → il < iu → iu < g.length → g.length ≤ 2 ^ 30 →
      (∀ (a : K), g[il]? = some a → il = 0 ∨ a ≤ x) →
      (∀ (b : K), g[iu]? = some b → iu + 1 = g.length ∨ x < b) →
      ∃ i : Nat, searchLoop true g x il iu = some i ∧ i + 1 < g.length ∧
        (∀ (a : K), g[i]? = some a → i = 0 ∨ a ≤ x) ∧
        (∀ (b : K), g[i + 1]? = some b → i + 2 = g.length ∨ x < b) := by
  intro n
  induction n with
  | zero => intro il iu h1 h2; omega
  | succ n ih =>
    intro il iu h1 h2 h3 h4 h5 h6
    rw [searchLoop]
    by_cases hg : iu - il > 1
    · rw [if_pos hg, if_neg (by omega)]
      have hm : (iu + il) / 2 < g.length := by omega
      rw [List.getElem?_eq_getElem hm]
      simp only [decide_eq_true_eq]
      by_cases hx : x ≥ g[(iu + il) / 2]
      · rw [if_pos hx]
        refine ih _ _ (by omega) (by omega) h3 h4 ?_ h6
        intro a ha
        rw [List.getElem?_eq_getElem hm] at ha
        injection ha with ha
        exact Or.inr (ha ▸ hx)
      · rw [if_neg hx]
        refine ih _ _ (by omega) (by omega) (by omega) h4 h5 ?_
        intro b hb
        rw [List.getElem?_eq_getElem hm] at hb
        injection hb with hb
        exact Or.inr (hb ▸ not_le.mp hx)
    · rw [if_neg hg]
      have : iu = il + 1 := by omega
      subst this
      exact ⟨il, rfl, h3, h5, h6⟩

/-- The full description of the search on a strictly increasing grid of at least two radii. -/
theorem findNearest_inc (g : List K) (x : K) (hinc : g.Pairwise (· < ·)) (h2 : 2 ≤ g.length)
    (hmax : g.length ≤ 2 ^ 30) (lo hi : K) (hlo : g[0]? = some lo) (hhi : g[g.length - 1]? = some hi) :
    (x < lo ∧ findNearest g x = some (-1)) ∨
    (x > hi ∧ findNearest g x = some ((g.length : Int) - 1)) ∨
    (∃ (i : Nat) (a b : K), findNearest g x = some (i : Int) ∧ g[i]? = some a ∧ g[i + 1]? = some b ∧ a ≤ x ∧
      (x < b ∨ (x = b ∧ i + 2 = g.length))) := by
  match g, h2 with
  | g0 :: g1 :: rest, _ =>
    have h01 : g1 > g0 := by
      simp only [List.pairwise_cons] at hinc
      exact hinc.1 g1 (by simp)
    obtain ⟨i, e, hi1, ha, hb⟩ := searchLoop_inc (g0 :: g1 :: rest) x (rest.length + 1) 0 (rest.length + 1)
      (by omega) (by omega) (by simp) hmax (fun _ _ => Or.inl rfl)
      (fun _ _ => Or.inl (by simp))
    have hlast : (g1 :: rest).getLast (by simp) = hi := by
      have h := hhi
      rw [← List.getLast?_eq_getElem?] at h
      rw [List.getLast?_eq_some_getLast (by simp)] at h
      injection h with h
    have hlo' : g0 = lo := by simpa using hlo
    simp only [findNearest, h01, decide_true, e, hlast]
    rw [hlo']
    by_cases c1 : x < lo
    · left; exact ⟨c1, by rw [if_pos c1]⟩
    · right
      rw [if_neg c1]
      by_cases c2 : x > hi
      · left
        refine ⟨c2, ?_⟩
        rw [if_pos c2]
        simp only [List.length_cons]
        congr 1
        push_cast
        ring
      · right
        rw [if_neg c2]
        rw [hlo'] at ha hb hi1 hhi
        refine ⟨i, (lo :: g1 :: rest)[i], (lo :: g1 :: rest)[i + 1], rfl, List.getElem?_eq_getElem _,
          List.getElem?_eq_getElem hi1, ?_, ?_⟩
        · rcases ha _ (List.getElem?_eq_getElem (by omega)) with h | h
          · subst h; simpa using not_lt.mp c1
          · exact h
        · rcases hb _ (List.getElem?_eq_getElem hi1) with h | h
          · have e2 : (lo :: g1 :: rest)[i + 1] = hi := by
              have : i + 1 = (lo :: g1 :: rest).length - 1 := by omega
              rw [← this, List.getElem?_eq_getElem hi1] at hhi
              injection hhi
            rw [e2]
            rcases lt_or_eq_of_le (not_lt.mp c2) with h' | h'
            · exact Or.inl h'
            · exact Or.inr ⟨h', h⟩
          · exact Or.inl h

/-- **C55** On a strictly increasing grid of between two and 2^30 radii the search returns -1 below
the first radius, the last index above the last radius, and otherwise an index `i` with
`r_i ≤ x ≤ r_(i+1)`. -/
theorem C55_search_partial (g : List K) (x : K) (hinc : g.Pairwise (· < ·)) (h2 : 2 ≤ g.length)
    (hmax : g.length ≤ 2 ^ 30) :
    ∃ i : Int, findNearest g x = some i ∧
      ((∀ a : K, a ∈ g → x < a) → i = -1) ∧
      ((∀ a : K, a ∈ g → a < x) → i = (g.length : Int) - 1) ∧
      (∀ a b : K, a ∈ g → b ∈ g → a ≤ x → x ≤ b →
        ∃ (n : Nat) (u v : K), i = (n : Int) ∧ g[n]? = some u ∧ g[n + 1]? = some v ∧ u ≤ x ∧ x ≤ v) := by
  have l0 : 0 < g.length := by omega
  have ll : g.length - 1 < g.length := by omega
  have key := findNearest_inc g x hinc h2 hmax g[0] g[g.length - 1] (List.getElem?_eq_getElem _)
    (List.getElem?_eq_getElem _)
  have hmin : ∀ a : K, a ∈ g → g[0] ≤ a := by
    intro a ha
    obtain ⟨k, hk, rfl⟩ := List.getElem_of_mem ha
    rcases Nat.eq_zero_or_pos k with h | h
    · subst h; exact le_rfl
    · exact le_of_lt (List.pairwise_iff_getElem.mp hinc 0 k l0 hk h)
  have hmx : ∀ a : K, a ∈ g → a ≤ g[g.length - 1] := by
    intro a ha
    obtain ⟨k, hk, rfl⟩ := List.getElem_of_mem ha
    rcases Nat.lt_or_ge k (g.length - 1) with h | h
    · exact le_of_lt (List.pairwise_iff_getElem.mp hinc k (g.length - 1) hk ll h)
    · have : k = g.length - 1 := by omega
      subst this; exact le_rfl
  rcases key with ⟨c, e⟩ | ⟨c, e⟩ | ⟨n, a, b, e, ha, hb, h1, h3⟩
  · refine ⟨_, e, fun _ => rfl, fun h => ?_, fun a b ha _ h _ => ?_⟩
    · exact absurd (h _ (List.getElem_mem l0)) (not_lt.mpr c.le)
    · exact absurd (lt_of_lt_of_le c (hmin a ha)) (not_lt.mpr h)
  · refine ⟨_, e, fun h => ?_, fun _ => rfl, fun a b _ hb _ h => ?_⟩
    · exact absurd (h _ (List.getElem_mem ll)) (not_lt.mpr (le_of_lt c))
    · exact absurd (lt_of_le_of_lt (hmx b hb) c) (not_lt.mpr h)
  · refine ⟨_, e, fun h => ?_, fun h => ?_, fun _ _ _ _ _ _ => ⟨n, a, b, rfl, ha, hb, h1, ?_⟩⟩
    · exact absurd (h a (List.mem_of_getElem? ha)) (not_lt.mpr h1)
    · have := h b (List.mem_of_getElem? hb)
      rcases h3 with h3 | ⟨h3, -⟩
      · exact absurd this (not_lt.mpr h3.le)
      · exact absurd this (by rw [h3]; exact lt_irrefl _)
    · rcases h3 with h3 | ⟨h3, -⟩
      · exact h3.le
      · exact h3.le

example : findNearest [(1 : ℚ), 3, 7] 5 = some 1 ∧ findNearest [(1 : ℚ), 3, 7] 0 = some (-1) ∧
    findNearest [(1 : ℚ), 3, 7] 9 = some 2 ∧ findNearest [(1 : ℚ), 3, 7] 7 = some 1 := by
  refine ⟨?_, ?_, ?_, ?_⟩ <;> (simp [findNearest, searchLoop]; try norm_num)

/-- **C55** Between two radii the index is exact: it is the only one with `r_i ≤ x < r_(i+1)`,
except that the last radius itself is reported in the interval that ends there. -/
theorem C55_search_exact (g : List K) (x : K) (hinc : g.Pairwise (· < ·)) (hmax : g.length ≤ 2 ^ 30)
    (k : Nat) (u v : K) (hu : g[k]? = some u) (hv : g[k + 1]? = some v) (h1 : u ≤ x) (h3 : x < v) :
    findNearest g x = some (k : Int) := by
  have lk1 : k + 1 < g.length := by
    rcases Nat.lt_or_ge (k + 1) g.length with h | h
    · exact h
    · rw [List.getElem?_eq_none h] at hv; cases hv
  have lk : k < g.length := by omega
  have l0 : 0 < g.length := by omega
  have ll : g.length - 1 < g.length := by omega
  rw [List.getElem?_eq_getElem lk] at hu
  rw [List.getElem?_eq_getElem lk1] at hv
  injection hu with hu
  injection hv with hv
  have hmono : ∀ i j (hi : i < g.length) (hj : j < g.length), i ≤ j → g[i] ≤ g[j] := by
    intro i j hi hj hij
    rcases Nat.lt_or_ge i j with h | h
    · exact le_of_lt (List.pairwise_iff_getElem.mp hinc i j hi hj h)
    · have : i = j := by omega
      subst this; exact le_rfl
  rcases findNearest_inc g x hinc (by omega) hmax g[0] g[g.length - 1] (List.getElem?_eq_getElem _)
    (List.getElem?_eq_getElem _) with ⟨c, e⟩ | ⟨c, e⟩ | ⟨n, a, b, e, ha, hb, h4, h5⟩
  · have := hmono 0 k l0 lk (by omega)
    rw [hu] at this
    exact absurd c (not_lt.mpr (le_trans this h1))
  · have := hmono (k + 1) (g.length - 1) lk1 ll (by omega)
    rw [hv] at this
    exact absurd (le_trans h3.le this) (not_le.mpr c)
  · have ln : n + 1 < g.length := by
      rcases Nat.lt_or_ge (n + 1) g.length with h | h
      · exact h
      · rw [List.getElem?_eq_none h] at hb; cases hb
    rw [List.getElem?_eq_getElem (by omega)] at ha
    rw [List.getElem?_eq_getElem ln] at hb
    injection ha with ha
    injection hb with hb
    rw [e]
    congr 2
    rcases Nat.lt_trichotomy n k with h | h | h
    · have h6 := hmono (n + 1) k ln lk (by omega)
      rw [hb, hu] at h6
      rcases h5 with h5 | ⟨h5, h7⟩
      · exact absurd (le_trans h6 h1) (not_le.mpr h5)
      · omega
    · exact h
    · have h6 := hmono (k + 1) n lk1 (by omega) (by omega)
      rw [hv, ha] at h6
      exact absurd (lt_of_lt_of_le h3 h6) (not_lt.mpr h4)

/-- The search of GO+CODE is the same on a non-empty grid. -/
theorem C55_gocode_search (g : List K) (x : K) (h : g ≠ []) : gFindNearest g x = findNearest g x := by
  cases g with
  | nil => exact absurd rfl h
  | cons a l => rfl

/-- **C55** (refuted for one radius) A grid of one radius always gives index 0, also below it. -/
theorem C55_refuted_single (a x : K) : findNearest [a] x = some 0 := rfl

/-- **C55** An empty grid gives -1. -/
theorem C55_empty (x : K) : findNearest ([] : List K) x = some (-1) := rfl

/-- **C55** On a decreasing grid, which `Initialize` accepts, every radius strictly inside the grid
is reported as below it. -/
theorem C55_refuted_decreasing (a b : K) (rest : List K) (x : K) (hdec : (a :: b :: rest).Pairwise (· > ·))
    (hmax : rest.length + 2 ≤ 2 ^ 30) (hx : x < a) : findNearest (a :: b :: rest) x = some (-1) := by
  have h01 : ¬ b > a := by
    simp only [List.pairwise_cons] at hdec
    exact not_lt.mpr (le_of_lt (hdec.1 b (by simp)))
  have hs : ∀ (n il iu : Nat), iu - il ≤ n → il < iu → iu < (a :: b :: rest).length →
      ∃ i, searchLoop false (a :: b :: rest) x il iu = some i := by
    intro n
    induction n with
    | zero => intro il iu h1 h2; omega
    | succ n ih =>
      intro il iu h1 h2 h3
      rw [searchLoop]
      have h3' := h3
      simp only [List.length_cons] at h3'
      by_cases hg : iu - il > 1
      · have hm : (iu + il) / 2 < (a :: b :: rest).length := by simp only [List.length_cons]; omega
        rw [if_pos hg, if_neg (by omega), List.getElem?_eq_getElem hm]
        simp only []
        split
        · exact ih _ _ (by omega) (by omega) h3
        · exact ih _ _ (by omega) (by omega) (by omega)
      · rw [if_neg hg]; exact ⟨_, rfl⟩
  obtain ⟨i, e⟩ := hs _ 0 (rest.length + 1) le_rfl (by omega) (by simp)
  simp only [findNearest, h01, decide_false, e, if_pos hx]

/-- **C55** (refuted for huge grids) With 2^31-1 radii the sum of the two indices of the bisection
exceeds the largest `int`, for every radius at or above the last. -/
theorem C55_refuted_overflow (g : List K) (x : K) (hlen : g.length = 2 ^ 31 - 1)
    (hm : ∀ (a : K), a ∈ g → a ≤ x) (h01 : ∀ (a b : K), g[0]? = some a → g[1]? = some b → a < b) :
    findNearest g x = none := by
  match g, hlen with
  | g0 :: g1 :: rest, hlen =>
    have hl : rest.length + 1 = 2147483646 := by simp at hlen; omega
    have h : g1 > g0 := h01 g0 g1 rfl rfl
    have e : searchLoop true (g0 :: g1 :: rest) x 0 (rest.length + 1) = none := by
      rw [hl, searchLoop]
      have h2 : (2147483646 + 0) / 2 < (g0 :: g1 :: rest).length := by simp only [List.length_cons]; omega
      rw [if_pos (by norm_num), if_neg (by norm_num), List.getElem?_eq_getElem h2]
      simp only [decide_eq_true_eq]
      rw [if_pos (hm _ (List.getElem_mem h2)), searchLoop, if_pos (by norm_num), if_pos (by norm_num)]
    simp only [findNearest, h, decide_true, e]

end Softlib
