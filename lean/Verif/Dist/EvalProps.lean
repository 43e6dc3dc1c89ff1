/-
C56: evaluation of the numeric distribution function on and between its radii.
-/
import Verif.Dist.SearchProps
import Mathlib.Tactic.FieldSimp
import Mathlib.Algebra.Order.Ring.Defs

namespace Softlib

open Dist

variable {K : Type} [Field K] [LinearOrder K] {M P : Type}

/-- The straight line through `(a, f)` and `(b, g)` at `x`. -/
def lineThrough (a b f g x : K) : K := f + (g - f) * (x - a) / (b - a)

/-- A grid as built by well ordered insertion: strictly increasing, as many distributions. -/
structure GoodGrid (d : NDist M K) : Prop where
  inc : d.r.Pairwise (· < ·)
  two : 2 ≤ d.r.length
  small : d.r.length ≤ 2 ^ 30
  len : d.r.length = d.msdf.length

theorem lerp_line (a b f g x : K) (h : a ≠ b) : lerp a b f g x = .ok (lineThrough a b f g x) := by
  have h1 : b - a ≠ 0 := sub_ne_zero.mpr (Ne.symm h)
  simp only [lerp, if_neg h1, lineThrough]
  congr 1
  field_simp
  ring

theorem evalFirst_line (ev : M → P → K) (d : NDist M K) (p : P) (rho : K) (a b : K) (m n : M)
    (ha : d.r[0]? = some a) (hb : d.r[1]? = some b) (hm : d.msdf[0]? = some m) (hn : d.msdf[1]? = some n)
    (hab : a ≠ b) (h0 : a ≠ 0) :
    evalFirst ev d p rho = .ok (lineThrough a b (ev m p) (ev n p) rho) := by
  have h1 : b - a ≠ 0 := sub_ne_zero.mpr (Ne.symm hab)
  simp only [evalFirst, ha, hb, hm, hn, if_neg h1, lerp, sub_zero, if_neg h0, lineThrough]
  congr 1
  field_simp
  ring

theorem evalFirst_zero (ev : M → P → K) (d : NDist M K) (p : P) (rho : K) (b : K) (m n : M)
    (ha : d.r[0]? = some 0) (hb : d.r[1]? = some b) (hm : d.msdf[0]? = some m) (hn : d.msdf[1]? = some n) :
    evalFirst ev d p rho = .divZero := by
  simp only [evalFirst, ha, hb, hm, hn, lerp]
  split <;> simp

/-- Which positions are answered: extrapolation allowed, or inside the limits. -/
def Admitted (d : NDist M K) (rho : K) : Prop := d.allow = true ∨ (d.rmin ≤ rho ∧ rho ≤ d.rmax)

theorem admitted_not (d : NDist M K) (rho : K) (h : Admitted d rho) :
    ¬(d.allow = false ∧ (rho < d.rmin ∨ rho > d.rmax)) := by
  rintro ⟨h1, h2⟩
  rcases h with h | ⟨h3, h4⟩
  · rw [h] at h1; cases h1
  · rcases h2 with h2 | h2
    · exact absurd h3 (not_le.mpr h2)
    · exact absurd h4 (not_le.mpr h2)

theorem lt_of_getElem? {α : Type} {l : List α} {k : Nat} {a : α} (h : l[k]? = some a) : k < l.length := by
  rcases Nat.lt_or_ge k l.length with h' | h'
  · exact h'
  · rw [List.getElem?_eq_none h'] at h; cases h

/-- The index found for a radius in `[u, v)` between neighbours, or at the last radius. -/
theorem find_between (g : List K) (x : K) (hinc : g.Pairwise (· < ·)) (hmax : g.length ≤ 2 ^ 30)
    (k : Nat) (u v : K) (hu : g[k]? = some u) (hv : g[k + 1]? = some v) (h1 : u ≤ x) (h3 : x ≤ v) :
    findNearest g x = some (k : Int) ∨ (x = v ∧ ∃ w : K, g[k + 2]? = some w ∧ findNearest g x = some ((k + 1 : Nat) : Int)) := by
  have lk1 := lt_of_getElem? hv
  rcases lt_or_eq_of_le h3 with h | h
  · exact Or.inl (C55_search_exact g x hinc hmax k u v hu hv h1 h)
  · by_cases hk : k + 2 < g.length
    · right
      refine ⟨h, g[k + 2], List.getElem?_eq_getElem hk, ?_⟩
      refine C55_search_exact g x hinc hmax (k + 1) v g[k + 2] hv (List.getElem?_eq_getElem hk) h.ge ?_
      rw [h]
      rw [List.getElem?_eq_getElem lk1] at hv
      injection hv with hv
      rw [← hv]
      exact List.pairwise_iff_getElem.mp hinc _ _ _ _ (by omega)
    · left
      have l0 : 0 < g.length := by omega
      have e : g.length - 1 = k + 1 := by omega
      rcases findNearest_inc g x hinc (by omega) hmax g[0] v (List.getElem?_eq_getElem _) (by rw [e]; exact hv)
        with ⟨c, -⟩ | ⟨c, -⟩ | ⟨n, a, b, e1, ha, hb, h4, h5⟩
      · exfalso
        rw [h] at c
        rw [List.getElem?_eq_getElem lk1] at hv
        injection hv with hv
        have := List.pairwise_iff_getElem.mp hinc 0 (k + 1) l0 lk1 (by omega)
        rw [hv] at this
        exact lt_asymm c this
      · rw [h] at c; exact absurd c (lt_irrefl _)
      · rw [e1]
        have ln := lt_of_getElem? hb
        rcases h5 with h5 | ⟨h5, h6⟩
        · exfalso
          rw [List.getElem?_eq_getElem ln] at hb
          rw [List.getElem?_eq_getElem lk1] at hv
          injection hb with hb
          injection hv with hv
          have hle : g[n + 1] ≤ g[k + 1] := by
            rcases Nat.lt_or_ge (n + 1) (k + 1) with h' | h'
            · exact le_of_lt (List.pairwise_iff_getElem.mp hinc _ _ ln lk1 h')
            · have : n + 1 = k + 1 := by omega
              simp only [this]; exact le_rfl
          rw [hb, hv] at hle
          rw [h] at h5
          exact absurd hle (not_le.mpr h5)
        · congr 2; omega

/-- **C56** On a strictly increasing grid whose first radius is not zero, the value between two
neighbouring radii is the straight line through their values. -/
theorem C56_between_partial (ev : M → P → K) (d : NDist M K) (hd : GoodGrid d) (h0 : d.r[0]? ≠ some 0)
    (r shift : K) (p : P) (k : Nat) (u v : K) (m n : M)
    (hu : d.r[k]? = some u) (hv : d.r[k + 1]? = some v) (hm : d.msdf[k]? = some m) (hn : d.msdf[k + 1]? = some n)
    (h1 : u ≤ r - shift) (h3 : r - shift ≤ v) (hadm : Admitted d (r - shift)) :
    d.eval ev r p shift = .ok (lineThrough u v (ev m p) (ev n p) (r - shift)) := by
  have lk1 := lt_of_getElem? hv
  have hlt : u < v := by
    rw [List.getElem?_eq_getElem (by omega)] at hu
    rw [List.getElem?_eq_getElem lk1] at hv
    injection hu with hu
    injection hv with hv
    rw [← hu, ← hv]
    exact List.pairwise_iff_getElem.mp hd.inc _ _ _ _ (by omega)
  simp only [NDist.eval, if_neg (admitted_not d _ hadm)]
  have h1len : d.r.length ≠ 1 := by have := hd.two; omega
  rcases find_between d.r (r - shift) hd.inc hd.small k u v hu hv h1 h3 with e | ⟨e1, w, hw, e⟩
  · rw [e]
    simp only [if_neg h1len]
    by_cases hk : k = 0
    · subst hk
      rw [if_pos (by simp)]
      exact evalFirst_line ev d p _ u v m n hu hv hm hn hlt.ne (fun h => h0 (by rw [hu, h]))
    · rw [if_neg (by omega), if_neg (by simp only [Int.toNat_natCast]; omega)]
      simp only [evalMid, Int.toNat_natCast, hu, hv, hm, hn]
      exact lerp_line _ _ _ _ _ hlt.ne
  · rw [e]
    simp only [if_neg h1len]
    have lk2 := lt_of_getElem? hw
    rw [if_neg (by omega), if_neg (by simp only [Int.toNat_natCast]; omega)]
    have hn2 : k + 2 < d.msdf.length := by have := hd.len; omega
    have hlt2 : v < w := by
      rw [List.getElem?_eq_getElem lk1] at hv
      rw [List.getElem?_eq_getElem lk2] at hw
      injection hw with hw
      injection hv with hv
      rw [← hw, ← hv]
      exact List.pairwise_iff_getElem.mp hd.inc _ _ _ _ (by omega)
    simp only [evalMid, Int.toNat_natCast, hv, hn, hw, List.getElem?_eq_getElem hn2]
    rw [lerp_line _ _ _ _ _ hlt2.ne, e1]
    have h5 : v - u ≠ 0 := sub_ne_zero.mpr hlt.ne'
    simp only [lineThrough, sub_self, mul_zero, zero_div, add_zero]
    congr 1
    field_simp
    ring

/-- **C56** At a radius of the grid the value is that of the distribution inserted there. -/
theorem C56_grid_partial (ev : M → P → K) (d : NDist M K) (hd : GoodGrid d) (h0 : d.r[0]? ≠ some 0)
    (r shift : K) (p : P) (k : Nat) (m : M) (hr : d.r[k]? = some (r - shift)) (hm : d.msdf[k]? = some m)
    (hadm : Admitted d (r - shift)) : d.eval ev r p shift = .ok (ev m p) := by
  have lk := lt_of_getElem? hr
  have l2 := hd.two
  have hl := hd.len
  by_cases hk : k + 1 < d.r.length
  · rw [C56_between_partial ev d hd h0 r shift p k (r - shift) d.r[k + 1] m (d.msdf[k + 1]'(by omega)) hr
      (List.getElem?_eq_getElem _) hm (List.getElem?_eq_getElem _) le_rfl ?_ hadm]
    · simp [lineThrough]
    · rw [List.getElem?_eq_getElem lk] at hr
      injection hr with hr
      rw [← hr]
      exact le_of_lt (List.pairwise_iff_getElem.mp hd.inc _ _ _ _ (by omega))
  · obtain ⟨j, rfl⟩ : ∃ j, k = j + 1 := ⟨k - 1, by omega⟩
    have hlt : d.r[j] < r - shift := by
      rw [List.getElem?_eq_getElem lk] at hr
      injection hr with hr
      rw [← hr]
      exact List.pairwise_iff_getElem.mp hd.inc _ _ _ _ (by omega)
    rw [C56_between_partial ev d hd h0 r shift p j d.r[j] (r - shift) (d.msdf[j]'(by omega)) m
      (List.getElem?_eq_getElem _) hr (List.getElem?_eq_getElem _) hm hlt.le le_rfl hadm]
    have : r - shift - d.r[j] ≠ 0 := sub_ne_zero.mpr hlt.ne'
    simp only [lineThrough]
    congr 1
    field_simp
    ring

/-- **C56** Below the grid the value is the straight line through the first two radii. -/
theorem C56_below_partial (ev : M → P → K) (d : NDist M K) (hd : GoodGrid d) (h0 : d.r[0]? ≠ some 0)
    (r shift : K) (p : P) (u v : K) (m n : M) (hu : d.r[0]? = some u) (hv : d.r[1]? = some v)
    (hm : d.msdf[0]? = some m) (hn : d.msdf[1]? = some n) (h : r - shift < u) (hal : d.allow = true) :
    d.eval ev r p shift = .ok (lineThrough u v (ev m p) (ev n p) (r - shift)) := by
  have l2 := hd.two
  have hlt : u < v := by
    rw [List.getElem?_eq_getElem (by omega)] at hu hv
    injection hu with hu
    injection hv with hv
    rw [← hu, ← hv]
    exact List.pairwise_iff_getElem.mp hd.inc _ _ _ _ (by omega)
  simp only [NDist.eval, hal]
  rw [if_neg (by simp)]
  have h1len : d.r.length ≠ 1 := by omega
  rcases findNearest_inc d.r (r - shift) hd.inc l2 hd.small u (d.r[d.r.length - 1]) hu
    (List.getElem?_eq_getElem _) with ⟨c, e⟩ | ⟨c, e⟩ | ⟨n', a, b, e, ha, hb, h4, h5⟩
  · rw [e]
    simp only [if_neg h1len]
    rw [if_pos (by decide)]
    exact evalFirst_line ev d p _ u v m n hu hv hm hn hlt.ne (fun h => h0 (by rw [hu, h]))
  · exfalso
    have hle : u ≤ d.r[d.r.length - 1] := by
      rw [List.getElem?_eq_getElem (by omega)] at hu
      injection hu with hu
      rw [← hu]
      exact le_of_lt (List.pairwise_iff_getElem.mp hd.inc _ _ _ _ (by omega))
    exact absurd (lt_of_lt_of_le h hle) (not_lt.mpr (le_of_lt c))
  · exfalso
    have ln := lt_of_getElem? ha
    have hle : u ≤ a := by
      rw [List.getElem?_eq_getElem ln] at ha
      rw [List.getElem?_eq_getElem (by omega)] at hu
      injection hu with hu
      injection ha with ha
      rw [← hu, ← ha]
      rcases Nat.eq_zero_or_pos n' with h' | h'
      · subst h'; exact le_rfl
      · exact le_of_lt (List.pairwise_iff_getElem.mp hd.inc _ _ _ _ h')
    exact absurd (lt_of_lt_of_le h hle) (not_lt.mpr h4)

/-- **C56** Above the grid: the exact value.  The far point of the line is `3 b - a` where
`2 b - a` belongs to its value (`a`, `b` the last two radii). -/
theorem C56_above_exact (ev : M → P → K) (d : NDist M K) (hd : GoodGrid d)
    (r shift : K) (p : P) (a b : K) (m n : M) (ha : d.r[d.r.length - 2]? = some a) (hb : d.r[d.r.length - 1]? = some b)
    (hm : d.msdf[d.r.length - 2]? = some m) (hn : d.msdf[d.r.length - 1]? = some n)
    (h : r - shift > b) (hal : d.allow = true) (hne : b + (2 * b - a) ≠ b) :
    d.eval ev r p shift = .ok (ev n p + (ev n p - ev m p) * (r - shift - b) / (2 * b - a)) := by
  have l2 := hd.two
  simp only [NDist.eval, hal]
  rw [if_neg (by simp)]
  have h1len : d.r.length ≠ 1 := by omega
  rcases findNearest_inc d.r (r - shift) hd.inc l2 hd.small (d.r[0]) b (List.getElem?_eq_getElem _) hb
    with ⟨c, e⟩ | ⟨c, e⟩ | ⟨n', u, v, e, hu, hv, h4, h5⟩
  · exfalso
    have hle : d.r[0] ≤ b := by
      rw [List.getElem?_eq_getElem (by omega)] at hb
      injection hb with hb
      rw [← hb]
      exact le_of_lt (List.pairwise_iff_getElem.mp hd.inc _ _ _ _ (by omega))
    exact absurd (lt_of_lt_of_le c hle) (not_lt.mpr (le_of_lt h))
  · rw [e]
    simp only [if_neg h1len]
    rw [if_neg (by omega), if_pos (by omega)]
    simp only [evalLast, ha, hb, hm, hn]
    rw [lerp_line _ _ _ _ _ hne.symm]
    simp only [lineThrough]
    congr 3
    · ring
    · ring
  · exfalso
    have ln := lt_of_getElem? hv
    have hle : v ≤ b := by
      rw [List.getElem?_eq_getElem ln] at hv
      rw [List.getElem?_eq_getElem (by omega)] at hb
      injection hv with hv
      injection hb with hb
      rw [← hv, ← hb]
      rcases Nat.lt_or_ge (n' + 1) (d.r.length - 1) with h' | h'
      · exact le_of_lt (List.pairwise_iff_getElem.mp hd.inc _ _ _ _ h')
      · have : n' + 1 = d.r.length - 1 := by omega
        simp only [this]; exact le_rfl
    rcases h5 with h5 | ⟨h5, -⟩
    · exact absurd (lt_of_lt_of_le h5 hle) (not_lt.mpr (le_of_lt h))
    · rw [h5] at h; exact absurd h (not_lt.mpr hle)

/-- **C56** (refuted) Above the grid the value is not the straight line through the last two
values: two radii 1, 2 with values 1, 2 give 7/3 at 3, not 3. -/
theorem C56_refuted_above :
    NDist.eval (fun (m : ℚ) (_ : Unit) => m) ⟨[1, 2], [1, 2], 1, 2, true⟩ 3 () 0 = .ok (7 / 3 : ℚ) ∧
      lineThrough (1 : ℚ) 2 1 2 3 = 3 := by
  constructor
  · rw [C56_above_exact (fun (m : ℚ) (_ : Unit) => m) ⟨[1, 2], [1, 2], 1, 2, true⟩
      ⟨by simp, by simp, by simp, rfl⟩ 3 0 () 1 2 1 2 rfl rfl rfl rfl (by norm_num) rfl (by norm_num)]
    norm_num
  · norm_num [lineThrough]

/-- **C56** (refuted) If the first radius is zero every evaluation in the first interval, and below,
divides by zero, also on the radius itself. -/
theorem C56_refuted_zero (ev : M → P → K) (d : NDist M K) (hd : GoodGrid d) (r shift : K) (p : P) (v : K)
    (h0 : d.r[0]? = some 0) (hv : d.r[1]? = some v) (h1 : 0 ≤ r - shift) (h2 : r - shift < v)
    (hadm : Admitted d (r - shift)) : d.eval ev r p shift = .divZero := by
  have l2 := hd.two
  have hl := hd.len
  simp only [NDist.eval, if_neg (admitted_not d _ hadm)]
  rw [C55_search_exact d.r (r - shift) hd.inc hd.small 0 0 v h0 hv h1 h2]
  have h1len : d.r.length ≠ 1 := by omega
  simp only [if_neg h1len]
  rw [if_pos (by simp)]
  exact evalFirst_zero ev d p _ v (d.msdf[0]'(by omega)) (d.msdf[1]'(by omega)) h0 hv
    (List.getElem?_eq_getElem _) (List.getElem?_eq_getElem _)

/-- **C56** If extrapolation is not allowed every position outside the limits is an error. -/
theorem C56_outside_throws (ev : M → P → K) (d : NDist M K) (r shift : K) (p : P) (hal : d.allow = false)
    (h : r - shift < d.rmin ∨ d.rmax < r - shift) : d.eval ev r p shift = .throws := by
  simp only [NDist.eval]
  rw [if_pos ⟨hal, h⟩]

/-- **C56** With one radius the value is that of its distribution at every position except 0, where
0 is divided by 0. -/
theorem C56_single (ev : M → P → K) (d : NDist M K) (a : K) (m : M) (hr : d.r = [a]) (hm : d.msdf[0]? = some m)
    (r shift : K) (p : P) (hadm : Admitted d (r - shift)) :
    d.eval ev r p shift = if r - shift = 0 then .divZero else .ok (ev m p) := by
  simp only [NDist.eval, if_neg (admitted_not d _ hadm), hr, C55_refuted_single, List.length_singleton]
  simp only [if_true, evalOne, hm, lerp, zero_sub, neg_eq_zero]
  split
  · rfl
  · rename_i h
    congr 1
    field_simp
    ring

/-- **C56** (refuted) `Initialize` does not store the first radius: the object it makes answers at the
second radius with the values of the first. -/
theorem C56_refuted_initialize (ev : M → P → K) (r0 r1 r2 : K) (m0 m1 m2 : M) (p : P) (h01 : r0 < r1) (h12 : r1 < r2)
    (hz : r1 ≠ 0) :
    ∃ d, NDist.initialize [r0, r1, r2] [m0, m1, m2] = .ok d ∧ d.r = [r1, r2] ∧
      d.eval ev r1 p 0 = .ok (ev m0 p) ∧ d.eval ev r2 p 0 = .ok (ev m1 p) := by
  have hn1 : ¬ r0 ≥ r1 := not_le.mpr h01
  have hn2 : ¬ r1 ≥ r2 := not_le.mpr h12
  have hn3 : ¬ r0 > r2 := not_lt.mpr (le_of_lt (lt_trans h01 h12))
  refine ⟨⟨[r1, r2], [m0, m1, m2], r0, r2, true⟩, ?_, rfl, ?_, ?_⟩
  · simp [NDist.initialize, monotoneFrom, hn1, hn2, hn3, h01.le]
  · simp only [NDist.eval, sub_zero]
    have e : findNearest [r1, r2] r1 = some 0 := C55_search_exact [r1, r2] r1 (by simp [h12]) (by simp) 0 r1 r2 rfl rfl le_rfl h12
    simp only [e]
    rw [if_neg (by simp), if_neg (by simp), if_pos le_rfl]
    rw [evalFirst_line ev _ p r1 r1 r2 m0 m1 rfl rfl rfl rfl h12.ne hz]
    simp [lineThrough]
  · simp only [NDist.eval, sub_zero]
    have e : findNearest [r1, r2] r2 = some 0 := by
      rcases find_between [r1, r2] r2 (by simp [h12]) (by simp) 0 r1 r2 rfl rfl h12.le le_rfl with h | ⟨-, w, h, -⟩
      · exact h
      · simp at h
    simp only [e]
    rw [if_neg (by simp), if_neg (by simp), if_pos le_rfl]
    rw [evalFirst_line ev _ p r2 r1 r2 m0 m1 rfl rfl rfl rfl h12.ne hz]
    have : r2 - r1 ≠ 0 := sub_ne_zero.mpr h12.ne'
    simp only [lineThrough]
    congr 1
    field_simp
    ring

theorem monotone_up_iff : ∀ (l : List K) (a : K), monotoneFrom true a l = true ↔ (a :: l).Pairwise (· < ·)
  | [], a => by simp [monotoneFrom]
  | b :: l, a => by
    unfold monotoneFrom
    by_cases h : a ≥ b
    · rw [if_pos (Or.inl ⟨rfl, h⟩)]
      simp only [Bool.false_eq_true, false_iff]
      exact fun hp => absurd ((List.pairwise_cons.mp hp).1 b (by simp)) (not_lt.mpr h)
    · rw [if_neg (by simp [h]), monotone_up_iff l b]
      refine ⟨fun hp => List.pairwise_cons.mpr ⟨fun c hc => ?_, hp⟩, fun hp => (List.pairwise_cons.mp hp).2⟩
      rcases List.mem_cons.mp hc with rfl | hc
      · exact not_le.mp h
      · exact (not_le.mp h).trans ((List.pairwise_cons.mp hp).1 c hc)

theorem monotone_down_iff : ∀ (l : List K) (a : K), monotoneFrom false a l = true ↔ (a :: l).Pairwise (· > ·)
  | [], a => by simp [monotoneFrom]
  | b :: l, a => by
    unfold monotoneFrom
    by_cases h : a ≤ b
    · rw [if_pos (Or.inr ⟨rfl, h⟩)]
      simp only [Bool.false_eq_true, false_iff]
      exact fun hp => absurd ((List.pairwise_cons.mp hp).1 b (by simp)) (not_lt.mpr h)
    · rw [if_neg (by simp [h]), monotone_down_iff l b]
      refine ⟨fun hp => List.pairwise_cons.mpr ⟨fun c hc => ?_, hp⟩, fun hp => (List.pairwise_cons.mp hp).2⟩
      rcases List.mem_cons.mp hc with rfl | hc
      · exact not_le.mp h
      · exact gt_trans (not_le.mp h) ((List.pairwise_cons.mp hp).1 c hc)

/-- **C56** `Initialize` accepts exactly the radial grids that rise strictly, and those of three radii or more that fall
strictly; the others are refused with an exception.  (Two falling radii are refused, too.)  The radii but the first, the
momentum distributions and the least and greatest radius are kept. -/
theorem C56_initialize_iff (rs : List K) (ms : List M) (h0 : rs ≠ []) :
    ((rs.Pairwise (· < ·) ∨ (3 ≤ rs.length ∧ rs.Pairwise (· > ·))) ∧
      ∃ d, NDist.initialize rs ms = .ok d ∧ d.r = rs.tail ∧ d.msdf = ms ∧ d.allow = true ∧
        d.rmin ∈ rs ∧ d.rmax ∈ rs ∧ ∀ a ∈ rs, d.rmin ≤ a ∧ a ≤ d.rmax) ∨
    (¬ (rs.Pairwise (· < ·) ∨ (3 ≤ rs.length ∧ rs.Pairwise (· > ·))) ∧ NDist.initialize rs ms = .throws) := by
  cases rs with
  | nil => exact absurd rfl h0
  | cons r0 rest =>
    obtain ⟨asc, e, key⟩ : ∃ asc : Bool, NDist.initialize (r0 :: rest) ms = (if monotoneFrom asc r0 rest = false then .throws
        else .ok ⟨rest, ms, if r0 > (r0 :: rest).getLast (by simp) then (r0 :: rest).getLast (by simp) else r0,
          if r0 > (r0 :: rest).getLast (by simp) then r0 else (r0 :: rest).getLast (by simp), true⟩) ∧
        (monotoneFrom asc r0 rest = true ↔
          ((r0 :: rest).Pairwise (· < ·) ∨ (3 ≤ (r0 :: rest).length ∧ (r0 :: rest).Pairwise (· > ·)))) := by
      clear h0
      match rest with
      | [] => exact ⟨true, rfl, by simp [monotone_up_iff]⟩
      | [b] => exact ⟨true, rfl, by simp [monotone_up_iff]⟩
      | b :: c :: l =>
        refine ⟨decide (b ≥ r0), rfl, ?_⟩
        by_cases hb : b ≥ r0
        · rw [decide_eq_true hb, monotone_up_iff]
          refine ⟨Or.inl, fun h => h.resolve_right fun ⟨_, h⟩ => ?_⟩
          exact absurd ((List.pairwise_cons.mp h).1 b (by simp)) (not_lt.mpr hb)
        · rw [decide_eq_false hb, monotone_down_iff]
          refine ⟨fun h => Or.inr ⟨by simp, h⟩, fun h => (h.resolve_left fun h => ?_).2⟩
          exact hb ((List.pairwise_cons.mp h).1 b (by simp)).le
    rw [e]
    by_cases hm : monotoneFrom asc r0 rest = true
    · left
      refine ⟨key.mp hm, ?_⟩
      rw [if_neg (by simp [hm])]
      have hl : (r0 :: rest).getLast (by simp) ∈ r0 :: rest := List.getLast_mem _
      have hs : ∀ a ∈ r0 :: rest, (r0 ≤ a ∧ a ≤ (r0 :: rest).getLast (by simp)) ∨ ((r0 :: rest).getLast (by simp) ≤ a ∧ a ≤ r0) := by
        intro a ha
        obtain ⟨i, hi, rfl⟩ := List.getElem_of_mem ha
        rw [List.getLast_eq_getElem]
        rcases key.mp hm with h | ⟨-, h⟩
        · left
          refine ⟨?_, ?_⟩
          · rcases Nat.eq_zero_or_pos i with rfl | hp
            · exact le_refl _
            · exact ((List.pairwise_iff_getElem.mp h) 0 i (by simp) hi hp).le
          · rcases Nat.eq_or_lt_of_le (Nat.le_sub_one_of_lt hi) with e | hp
            · exact le_of_eq (by congr 1)
            · exact ((List.pairwise_iff_getElem.mp h) i _ hi (by simp) hp).le
        · right
          refine ⟨?_, ?_⟩
          · rcases Nat.eq_or_lt_of_le (Nat.le_sub_one_of_lt hi) with e | hp
            · exact le_of_eq (by congr 1; exact e.symm)
            · exact ((List.pairwise_iff_getElem.mp h) i _ hi (by simp) hp).le
          · rcases Nat.eq_zero_or_pos i with rfl | hp
            · exact le_refl _
            · exact ((List.pairwise_iff_getElem.mp h) 0 i (by simp) hi hp).le
      refine ⟨_, rfl, rfl, rfl, rfl, ?_, ?_, fun a ha => ?_⟩
      · dsimp only; split
        · exact hl
        · simp
      · dsimp only; split
        · simp
        · exact hl
      · have h1 := hs a ha
        generalize (r0 :: rest).getLast (by simp) = z at h1 ⊢
        dsimp only
        split_ifs with hz
        · rcases h1 with h | h
          · exact absurd (h.1.trans h.2) (not_le.mpr hz)
          · exact h
        · rcases h1 with h | h
          · exact h
          · exact ⟨(not_lt.mp hz).trans h.1, h.2.trans (not_lt.mp hz)⟩
    · right
      refine ⟨fun h => hm (key.mpr h), ?_⟩
      rw [if_pos (by simpa using hm)]

example : NDist.initialize [(2 : ℚ), 1] [(), ()] = .throws ∧ ∃ d, NDist.initialize [(3 : ℚ), 2, 1] [(), (), ()] = .ok d ∧ d.r = [2, 1] := by
  constructor
  · norm_num [NDist.initialize, monotoneFrom]
  · exact ⟨⟨[2, 1], [(), (), ()], 1, 3, true⟩, by simp [NDist.initialize, monotoneFrom]; norm_num, rfl⟩

/-- **C56** `Initialize` with one radius makes an object whose evaluation reads outside its vectors. -/
theorem C56_refuted_initialize_single (ev : M → P → K) (r0 : K) (m0 : M) (r shift : K) (p : P) :
    ∃ d, NDist.initialize [r0] [m0] = .ok d ∧ d.eval ev r p shift = .ub := by
  refine ⟨⟨[], [m0], r0, r0, true⟩, ?_, ?_⟩
  · simp [NDist.initialize, monotoneFrom]
  · simp [NDist.eval, findNearest, evalFirst]

example : NDist.eval (fun (m : ℚ) (_ : Unit) => m) ⟨[1, 2, 4], [10, 20, 60], 1, 4, false⟩ 3 () 0 = .ok (40 : ℚ) := by
  rw [C56_between_partial (fun (m : ℚ) (_ : Unit) => m) ⟨[1, 2, 4], [10, 20, 60], 1, 4, false⟩
      ⟨by norm_num, by norm_num, by norm_num, rfl⟩ (by norm_num) 3 0 () 1 2 4 20 60 rfl rfl rfl rfl (by norm_num) (by norm_num)
      (Or.inr (by norm_num))]
  norm_num [lineThrough]

/-! ### GO+CODE -/

/-- **C56** The GO+CODE evaluation agrees with the one above from the first radius on. -/
theorem C56_gocode_eval (ev : M → P → K) (d : NDist M K) (hd : GoodGrid d) (r shift : K) (p : P) (lo : K)
    (hlo : d.r[0]? = some lo) (h : lo ≤ r - shift) : gEval ev d r p shift = d.eval ev r p shift := by
  have l2 := hd.two
  have hne : d.r ≠ [] := by intro h; rw [h] at l2; simp at l2
  have h1len : d.r.length ≠ 1 := by omega
  simp only [gEval, NDist.eval, C55_gocode_search _ _ hne]
  split
  · rfl
  · rcases findNearest_inc d.r (r - shift) hd.inc l2 hd.small lo (d.r[d.r.length - 1]) hlo
      (List.getElem?_eq_getElem _) with ⟨c, e⟩ | ⟨c, e⟩ | ⟨n, u, v, e, hu, hv, h4, h5⟩
    · exact absurd h (not_le.mpr c)
    · simp only [e, if_neg h1len]
      rw [if_neg (show ¬ ((d.r.length : Int) - 1 < 0) by omega)]
      by_cases h0 : (d.r.length : Int) - 1 ≤ 0
      · omega
      · rw [if_neg (by omega), if_neg h0]
    · simp only [e, if_neg h1len]
      rw [if_neg (show ¬ ((n : Int) < 0) by omega)]
      by_cases h0 : n = 0
      · subst h0; simp
      · rw [if_neg (show ¬ ((n : Int).toNat = 0) by simpa using h0), if_neg (show ¬ ((n : Int) ≤ 0) by omega)]

/-- **C56** (refuted for GO+CODE) Below the first radius GO+CODE extrapolates from the last two:
the radii 1, 2, 3 with values 1, 1, 5 give 5/2 at 1/2, where the line through the first two gives 1. -/
theorem C56_refuted_gocode_below :
    gEval (fun (m : ℚ) (_ : Unit) => m) ⟨[1, 2, 3], [1, 1, 5], 1, 3, true⟩ (1 / 2) () 0 = .ok (5 / 2 : ℚ) ∧
      lineThrough (1 : ℚ) 2 1 1 (1 / 2) = 1 := by
  constructor
  · have e : gFindNearest [(1 : ℚ), 2, 3] (1 / 2) = some (-1) := by
      rcases findNearest_inc [(1 : ℚ), 2, 3] (1 / 2) (by norm_num) (by norm_num) (by norm_num) 1 3 rfl rfl
        with ⟨c, e⟩ | ⟨c, e⟩ | ⟨n, u, v, e, hu, hv, h4, h5⟩
      · exact e
      · norm_num at c
      · exfalso
        have : (1 : ℚ) ≤ u := by
          rcases n with _ | _ | _ | n <;> simp at hu hv <;> rw [← hu] <;> norm_num
        linarith
    simp only [gEval, sub_zero, e]
    norm_num [evalLast, lerp]
  · norm_num [lineThrough]

/-- **C56** (refuted for GO+CODE) With one radius the evaluation reads the second. -/
theorem C56_refuted_gocode_single (ev : M → P → K) (a lo hi : K) (m : M) (r shift : K) (p : P) :
    gEval ev ⟨[a], [m], lo, hi, true⟩ r p shift = .ub := by
  simp [gEval, gFindNearest, findNearest, evalFirst]

/-- **C56** (refuted for GO+CODE) Without radii the search reads the grid all the same. -/
theorem C56_refuted_gocode_empty (ev : M → P → K) (ms : List M) (lo hi r shift : K) (p : P) :
    gEval ev ⟨[], ms, lo, hi, true⟩ r p shift = .ub := by
  simp [gEval, gFindNearest]

end Softlib
