/-
C57: the order of insertion of radial points; C58: clones of numeric and GO+CODE distributions.
-/
import Verif.Dist.EvalProps
import Mathlib.Data.List.InsertIdx
import Mathlib.Data.List.Perm.Basic
import Mathlib.Data.Rat.Defs

namespace Softlib

open Dist

variable {K : Type} [Field K] [LinearOrder K] {M P : Type}

theorem insertIdx_take_drop {α : Type} (x : α) : ∀ (k : Nat) (l : List α), k ≤ l.length →
    l.insertIdx k x = l.take k ++ x :: l.drop k
  | 0, l, _ => by simp
  | k + 1, [], h => by simp at h
  | k + 1, a :: l, h => by
    simp only [List.insertIdx_succ_cons, List.take_succ_cons, List.drop_succ_cons, List.cons_append]
    rw [insertIdx_take_drop x k l (by simpa using h)]

/-- Where the search puts a new radius above the first. -/
theorem find_insert (g : List K) (x : K) (hinc : g.Pairwise (· < ·)) (hmax : g.length ≤ 2 ^ 30)
    (lo : K) (hlo : g[0]? = some lo) (hx : lo < x) (hnew : x ∉ g) :
    ∃ k : Nat, findNearest g x = some (k : Int) ∧ k < g.length ∧
      (∀ a ∈ g.take (k + 1), a < x) ∧ (∀ b ∈ g.drop (k + 1), x < b) := by
  match g, hlo with
  | [a], hlo =>
    have : a = lo := by simpa using hlo
    subst this
    exact ⟨0, rfl, by simp, by simp [hx], by simp⟩
  | g0 :: g1 :: rest, hlo =>
    generalize hG : g0 :: g1 :: rest = G at *
    have l2 : 2 ≤ G.length := by rw [← hG]; simp
    have mono : ∀ i j (hi : i < G.length) (hj : j < G.length), i ≤ j → G[i] ≤ G[j] := by
      intro i j hi hj hij
      rcases Nat.lt_or_ge i j with h | h
      · exact le_of_lt (List.pairwise_iff_getElem.mp hinc i j hi hj h)
      · have : i = j := by omega
        subst this; exact le_rfl
    have takes : ∀ (n : Nat) (hn : n < G.length), G[n] < x → ∀ a ∈ G.take (n + 1), a < x := by
      intro n hn h a ha
      obtain ⟨i, hi, rfl⟩ := List.getElem_of_mem ha
      rw [List.length_take] at hi
      rw [List.getElem_take]
      exact lt_of_le_of_lt (mono i n (by omega) hn (by omega)) h
    rcases findNearest_inc G x hinc l2 hmax lo (G[G.length - 1]) hlo (List.getElem?_eq_getElem _)
      with ⟨c, e⟩ | ⟨c, e⟩ | ⟨n, u, v, e, hu, hv, h4, h5⟩
    · exact absurd c (not_lt.mpr hx.le)
    · refine ⟨G.length - 1, ?_, by omega, takes _ _ c, ?_⟩
      · rw [e]; congr 1; omega
      · intro b hb
        rw [List.drop_of_length_le (by omega)] at hb
        cases hb
    · have ln := lt_of_getElem? hv
      have hux : u < x := lt_of_le_of_ne h4 (fun h => hnew (h ▸ List.mem_of_getElem? hu))
      have hxv : x < v := by
        rcases h5 with h5 | ⟨h5, -⟩
        · exact h5
        · exact absurd (h5 ▸ List.mem_of_getElem? hv) hnew
      rw [List.getElem?_eq_getElem (by omega)] at hu
      rw [List.getElem?_eq_getElem ln] at hv
      injection hu with hu
      injection hv with hv
      refine ⟨n, e, by omega, takes n (by omega) (hu ▸ hux), ?_⟩
      intro b hb
      obtain ⟨i, hi, rfl⟩ := List.getElem_of_mem hb
      rw [List.length_drop] at hi
      rw [List.getElem_drop]
      exact lt_of_lt_of_le (hv ▸ hxv) (mono (n + 1) _ ln (by omega) (by omega))

/-- The object `d` holds exactly the pairs of `L`, in increasing order of radius, with the limits
that belong to them. -/
structure HoldsPairs (d : NDist M K) (L : List (K × M)) : Prop where
  r : d.r = L.map Prod.fst
  msdf : d.msdf = L.map Prod.snd
  inc : L.Pairwise (fun a b => a.1 < b.1)
  lo : ∃ q ∈ L, q.1 = d.rmin
  lo_le : ∀ q ∈ L, d.rmin ≤ q.1
  hi : ∃ q ∈ L, q.1 = d.rmax
  le_hi : ∀ q ∈ L, q.1 ≤ d.rmax
  allow : d.allow = true

theorem HoldsPairs.head {d : NDist M K} {L : List (K × M)} (h : HoldsPairs d L) : d.r[0]? = some d.rmin := by
  obtain ⟨q, hq, e⟩ := h.lo
  cases L with
  | nil => cases hq
  | cons a L =>
    rw [h.r]
    simp only [List.map_cons, List.getElem?_cons_zero]
    congr 1
    apply le_antisymm
    · rw [← e]
      rcases List.mem_cons.mp hq with h' | h'
      · rw [h']
      · exact le_of_lt ((List.pairwise_cons.mp h.inc).1 q h')
    · exact h.lo_le a (by simp)

theorem holds_insert (d : NDist M K) (L : List (K × M)) (h : HoldsPairs d L) (x : K) (m : M)
    (hlen : L.length ≤ 2 ^ 30) (hx : d.rmin < x) (hnew : ∀ q ∈ L, q.1 ≠ x) :
    ∃ d' k, d.insert x m = some d' ∧ k ≤ L.length ∧ HoldsPairs d' (L.insertIdx k (x, m)) ∧ d'.rmin = d.rmin := by
  have hinc : d.r.Pairwise (· < ·) := by
    rw [h.r, List.pairwise_map]; exact h.inc
  have hl : d.r.length = L.length := by rw [h.r]; simp
  have hne : d.r.length ≠ 0 := by
    intro h0
    have := lt_of_getElem? h.head
    omega
  obtain ⟨k, e, hk, hbelow, habove⟩ := find_insert d.r x hinc (by omega) d.rmin h.head hx (by
    rw [h.r]; intro hm
    obtain ⟨q, hq, e⟩ := List.mem_map.mp hm
    exact hnew q hq e)
  have hk1 : k + 1 ≤ L.length := by omega
  have hmlen : d.msdf.length = L.length := by rw [h.msdf]; simp
  have h1 : ((k : Int) + 1).toNat = k + 1 := by omega
  have he : d.insert x m = some
      { r := if (k : Int) = -1 then d.r ++ [x] else d.r.insertIdx (k + 1) x
        msdf := d.msdf.insertIdx (k + 1) m
        rmin := if d.r.length = 0 then x else if x > d.rmax then d.rmin else if x < d.rmin then x else d.rmin
        rmax := if d.r.length = 0 then x else if x > d.rmax then x else d.rmax
        allow := d.allow } := by
    simp only [NDist.insert, e, h1]
    rw [if_neg (show ¬ (k + 1 > d.msdf.length) by omega)]
  refine ⟨_, k + 1, he, hk1, ?_, ?_⟩
  · constructor
    · simp only
      rw [if_neg (show ¬ ((k : Int) = -1) by omega), h.r, List.map_insertIdx]
    · simp only
      rw [h.msdf, List.map_insertIdx]
    · rw [insertIdx_take_drop _ _ _ hk1]
      rw [List.pairwise_append]
      refine ⟨h.inc.sublist (List.take_sublist _ _), ?_, ?_⟩
      · rw [List.pairwise_cons]
        refine ⟨?_, h.inc.sublist (List.drop_sublist _ _)⟩
        intro q hq
        refine habove q.1 ?_
        rw [h.r, ← List.map_drop]
        exact List.mem_map_of_mem hq
      · intro a ha b hb
        have hax : a.1 < x := by
          refine hbelow a.1 ?_
          rw [h.r, ← List.map_take]
          exact List.mem_map_of_mem ha
        rcases List.mem_cons.mp hb with hb | hb
        · rw [hb]; exact hax
        · refine lt_trans hax (habove b.1 ?_)
          rw [h.r, ← List.map_drop]
          exact List.mem_map_of_mem hb
    · simp only [if_neg hne]
      have hnl : ¬ x < d.rmin := not_lt.mpr hx.le
      simp only [if_neg hnl, ite_self]
      obtain ⟨q, hq, e⟩ := h.lo
      exact ⟨q, (List.mem_insertIdx hk1).mpr (Or.inr hq), e⟩
    · simp only [if_neg hne]
      have hnl : ¬ x < d.rmin := not_lt.mpr hx.le
      simp only [if_neg hnl, ite_self]
      intro q hq
      rcases (List.mem_insertIdx hk1).mp hq with h' | h'
      · rw [h']; exact hx.le
      · exact h.lo_le q h'
    · simp only [if_neg hne]
      by_cases c : x > d.rmax
      · simp only [if_pos c]
        exact ⟨(x, m), (List.mem_insertIdx hk1).mpr (Or.inl rfl), rfl⟩
      · simp only [if_neg c]
        obtain ⟨q, hq, e⟩ := h.hi
        exact ⟨q, (List.mem_insertIdx hk1).mpr (Or.inr hq), e⟩
    · simp only [if_neg hne]
      intro q hq
      by_cases c : x > d.rmax
      · simp only [if_pos c]
        rcases (List.mem_insertIdx hk1).mp hq with h' | h'
        · rw [h']
        · exact le_trans (h.le_hi q h') (le_of_lt c)
      · simp only [if_neg c]
        rcases (List.mem_insertIdx hk1).mp hq with h' | h'
        · rw [h']; exact not_lt.mp c
        · exact h.le_hi q h'
    · exact h.allow
  · simp only [if_neg hne]
    have hnl : ¬ x < d.rmin := not_lt.mpr hx.le
    simp only [if_neg hnl, ite_self]

theorem holds_insertAll : ∀ (l : List (K × M)) (d : NDist M K) (L : List (K × M)), HoldsPairs d L →
    L.length + l.length ≤ 2 ^ 30 → (∀ q ∈ l, d.rmin < q.1) → (∀ q ∈ l, ∀ q' ∈ L, q'.1 ≠ q.1) →
    l.Pairwise (fun a b => a.1 ≠ b.1) →
    ∃ d' L', d.insertAll l = some d' ∧ HoldsPairs d' L' ∧ L'.Perm (L ++ l)
  | [], d, L, h, _, _, _, _ => ⟨d, L, rfl, h, by simp⟩
  | (x, m) :: l, d, L, h, hlen, hlo, hnew, hp => by
    simp only [List.length_cons] at hlen
    obtain ⟨d1, k, e, hk, h1, hr⟩ := holds_insert d L h x m (by omega) (hlo (x, m) (by simp)) (hnew (x, m) (by simp))
    have hperm : (L.insertIdx k (x, m)).Perm ((x, m) :: L) := List.perm_insertIdx _ _ hk
    obtain ⟨d', L', e', h', p'⟩ := holds_insertAll l d1 _ h1
      (by rw [List.length_insertIdx_of_le_length hk]; omega)
      (fun q hq => by rw [hr]; exact hlo q (by simp [hq]))
      (by
        intro q hq q' hq'
        rcases List.mem_cons.mp (hperm.mem_iff.mp hq') with h2 | h2
        · rw [h2]; exact (List.pairwise_cons.mp hp).1 q hq
        · exact hnew q (by simp [hq]) q' h2)
      (List.pairwise_cons.mp hp).2
    refine ⟨d', L', ?_, h', p'.trans ?_⟩
    · simp only [NDist.insertAll, e, e']
    · refine (hperm.append_right l).trans ?_
      simp only [List.cons_append]
      exact List.perm_middle.symm

theorem holds_single (x : K) (m : M) :
    ∃ d, (NDist.empty : NDist M K).insert x m = some d ∧ HoldsPairs d [(x, m)] ∧ d.rmin = x := by
  refine ⟨⟨[x], [m], x, x, true⟩, ?_, ?_, rfl⟩
  · simp [NDist.insert, NDist.empty, findNearest]
  · constructor <;> simp

/-- **C57** If the smallest radius is inserted first and the radii are distinct, the object holds
exactly the inserted pairs in increasing order of radius, whatever the order of the others. -/
theorem C57_insert_partial (a : K) (m : M) (l : List (K × M)) (hmin : ∀ q ∈ l, a < q.1)
    (hdist : l.Pairwise (fun p q => p.1 ≠ q.1)) (hlen : l.length < 2 ^ 30) :
    ∃ (d : NDist M K) (L : List (K × M)), NDist.insertAll NDist.empty ((a, m) :: l) = some d ∧ L.Perm ((a, m) :: l) ∧
      L.Pairwise (fun p q => p.1 < q.1) ∧ d.r = L.map Prod.fst ∧ d.msdf = L.map Prod.snd ∧
      d.rmin = a ∧ (∀ q ∈ L, q.1 ≤ d.rmax) ∧ (∃ q ∈ L, q.1 = d.rmax) := by
  obtain ⟨d1, e, h1, hr⟩ := holds_single (K := K) a m
  obtain ⟨d', L', e', h', p'⟩ := holds_insertAll l d1 _ h1 (by simp only [List.length_singleton]; omega)
    (fun q hq => by rw [hr]; exact hmin q hq)
    (fun q hq q' hq' => by
      rw [List.mem_singleton] at hq'
      rw [hq']
      exact (hmin q hq).ne) hdist
  have hmin' : d'.rmin = a := by
    obtain ⟨q, hq, e2⟩ := h'.lo
    apply le_antisymm
    · exact h'.lo_le (a, m) (p'.mem_iff.mpr (by simp))
    · rw [← e2]
      rcases List.mem_cons.mp (p'.mem_iff.mp hq) with h2 | h2
      · rw [h2]
      · exact (hmin q h2).le
  exact ⟨d', L', by simp only [NDist.insertAll, e, e'], p', h'.inc, h'.r, h'.msdf, hmin', h'.le_hi, h'.hi⟩

theorem sorted_perm_eq (L L' : List (K × M)) (h : L.Pairwise (fun p q => p.1 < q.1))
    (h' : L'.Pairwise (fun p q => p.1 < q.1)) (hp : L.Perm L') : L = L' :=
  List.Perm.eq_of_pairwise (fun a b _ _ hab hba => absurd hab (lt_asymm hba)) h h' hp

/-- **C57** The order of the other insertions does not matter: the objects are equal. -/
theorem C57_order_partial (a : K) (m : M) (l l' : List (K × M)) (hperm : l.Perm l') (hmin : ∀ q ∈ l, a < q.1)
    (hdist : l.Pairwise (fun p q => p.1 ≠ q.1)) (hlen : l.length < 2 ^ 30) :
    NDist.insertAll (NDist.empty : NDist M K) ((a, m) :: l) = NDist.insertAll NDist.empty ((a, m) :: l') := by
  have hdist' : l'.Pairwise (fun p q => p.1 ≠ q.1) := hperm.pairwise hdist (fun h => h.symm)
  obtain ⟨d1, e, h1, hr⟩ := holds_single (K := K) a m
  have hs : ∀ (l : List (K × M)), (∀ q ∈ l, a < q.1) → ∀ q ∈ l, ∀ q' ∈ [(a, m)], q'.1 ≠ q.1 := by
    intro l h q hq q' hq'
    rw [List.mem_singleton] at hq'
    rw [hq']
    exact (h q hq).ne
  have hmin' : ∀ q ∈ l', a < q.1 := fun q hq => hmin q (hperm.mem_iff.mpr hq)
  obtain ⟨d2, L2, e2, h2, p2⟩ := holds_insertAll l d1 _ h1 (by simp only [List.length_singleton]; omega)
    (fun q hq => by rw [hr]; exact hmin q hq) (hs l hmin) hdist
  obtain ⟨d3, L3, e3, h3, p3⟩ := holds_insertAll l' d1 _ h1
    (by simp only [List.length_singleton]; rw [← hperm.length_eq]; omega)
    (fun q hq => by rw [hr]; exact hmin' q hq) (hs l' hmin') hdist'
  have hL : L2 = L3 := sorted_perm_eq L2 L3 h2.inc h3.inc
    (p2.trans ((List.Perm.append_left _ hperm).trans p3.symm))
  subst hL
  have hd : d2 = d3 := by
    obtain ⟨r2, m2, lo2, hi2, a2⟩ := d2
    obtain ⟨r3, m3, lo3, hi3, a3⟩ := d3
    have := h2.r.trans h3.r.symm
    have := h2.msdf.trans h3.msdf.symm
    have := h2.allow.trans h3.allow.symm
    have hlo : lo2 = lo3 := by
      obtain ⟨q, hq, e⟩ := h2.lo
      obtain ⟨q', hq', e'⟩ := h3.lo
      exact le_antisymm (by have := h2.lo_le q' hq'; rw [e'] at this; exact this)
        (by have := h3.lo_le q hq; rw [e] at this; exact this)
    have hhi : hi2 = hi3 := by
      obtain ⟨q, hq, e⟩ := h2.hi
      obtain ⟨q', hq', e'⟩ := h3.hi
      exact le_antisymm (by have := h3.le_hi q hq; rw [e] at this; exact this)
        (by have := h2.le_hi q' hq'; rw [e'] at this; exact this)
    simp_all
  simp only [NDist.insertAll, e, e2, e3, hd]

/-- **C57** An object built with the smallest radius first answers at every inserted radius with the
distribution inserted there. -/
theorem C57_eval_partial (ev : M → P → K) (a : K) (m : M) (l : List (K × M)) (hmin : ∀ q ∈ l, a < q.1)
    (hdist : l.Pairwise (fun p q => p.1 ≠ q.1)) (hlen : l.length < 2 ^ 30) (ha : a ≠ 0) (hl : l ≠ []) (p : P) :
    ∃ d, NDist.insertAll NDist.empty ((a, m) :: l) = some d ∧
      ∀ q ∈ (a, m) :: l, d.eval ev q.1 p 0 = .ok (ev q.2 p) := by
  obtain ⟨d1, e, h1, hr⟩ := holds_single (K := K) a m
  obtain ⟨d', L', e', h', p'⟩ := holds_insertAll l d1 _ h1 (by simp only [List.length_singleton]; omega)
    (fun q hq => by rw [hr]; exact hmin q hq)
    (fun q hq q' hq' => by
      rw [List.mem_singleton] at hq'
      rw [hq']
      exact (hmin q hq).ne) hdist
  refine ⟨d', by simp only [NDist.insertAll, e, e'], ?_⟩
  intro q hq
  have hlen' : L'.length = l.length + 1 := by rw [p'.length_eq]; simp
  have hlpos : 0 < l.length := List.length_pos_iff.mpr hl
  have hmem : q ∈ L' := p'.mem_iff.mpr hq
  obtain ⟨k, hk, ek⟩ := List.getElem_of_mem hmem
  have hrmin : d'.rmin = a := by
    obtain ⟨q, hq, e2⟩ := h'.lo
    apply le_antisymm
    · exact h'.lo_le (a, m) (p'.mem_iff.mpr (by simp))
    · rw [← e2]
      rcases List.mem_cons.mp (p'.mem_iff.mp hq) with h2 | h2
      · rw [h2]
      · exact (hmin q h2).le
  refine C56_grid_partial ev d' ⟨?_, ?_, ?_, ?_⟩ ?_ q.1 0 p k q.2 ?_ ?_ (Or.inl h'.allow)
  · rw [h'.r, List.pairwise_map]; exact h'.inc
  · rw [h'.r, List.length_map]; omega
  · rw [h'.r, List.length_map]; omega
  · rw [h'.r, h'.msdf, List.length_map, List.length_map]
  · rw [h'.head, hrmin]
    intro h
    injection h with h
    exact ha h
  · rw [h'.r, List.getElem?_map, List.getElem?_eq_getElem hk, ek]
    simp
  · rw [h'.msdf, List.getElem?_map, List.getElem?_eq_getElem hk, ek]
    rfl

example : ∃ d, NDist.insertAll NDist.empty [((1 : ℚ), 'a'), (5, 'b'), (3, 'c')] = some d ∧ d.r = [1, 3, 5] ∧
    d.msdf = ['a', 'c', 'b'] := by
  refine ⟨⟨[1, 3, 5], ['a', 'c', 'b'], 1, 5, true⟩, ?_, rfl, rfl⟩
  simp [NDist.insertAll, NDist.insert, NDist.empty, findNearest, searchLoop, List.insertIdx, List.modifyTailIdx,
    List.modifyTailIdx.go]
  norm_num
  exact ⟨rfl, rfl⟩

/-- **C57** (refuted) A radius below the first of several is appended to the radii and its
distribution is put in front: every radius is then paired with the wrong distribution. -/
theorem C57_refuted_below (d : NDist M K) (x : K) (m : M) (h : d.r.Pairwise (· < ·)) (h2 : 2 ≤ d.r.length)
    (hmax : d.r.length ≤ 2 ^ 30) (lo : K) (hlo : d.r[0]? = some lo) (hx : x < lo) :
    ∃ d', d.insert x m = some d' ∧ d'.r = d.r ++ [x] ∧ d'.msdf = m :: d.msdf := by
  rcases findNearest_inc d.r x h h2 hmax lo (d.r[d.r.length - 1]) hlo (List.getElem?_eq_getElem _)
    with ⟨c, e⟩ | ⟨c, e⟩ | ⟨n, u, v, e, hu, hv, h4, h5⟩
  · refine ⟨_, by simp only [NDist.insert, e]; rw [if_neg (by simp)], ?_, ?_⟩
    · simp
    · simp
  · exfalso
    have hle : lo ≤ d.r[d.r.length - 1] := by
      rw [List.getElem?_eq_getElem (by omega)] at hlo
      injection hlo with hlo
      rw [← hlo]
      exact le_of_lt (List.pairwise_iff_getElem.mp h _ _ _ _ (by omega))
    exact absurd (lt_of_lt_of_le hx hle) (not_lt.mpr (le_of_lt c))
  · exfalso
    have ln := lt_of_getElem? hu
    have hle : lo ≤ u := by
      rw [List.getElem?_eq_getElem ln] at hu
      rw [List.getElem?_eq_getElem (by omega)] at hlo
      injection hu with hu
      injection hlo with hlo
      rw [← hu, ← hlo]
      rcases Nat.eq_zero_or_pos n with h' | h'
      · subst h'; exact le_rfl
      · exact le_of_lt (List.pairwise_iff_getElem.mp h _ _ _ _ h')
    exact absurd (lt_of_lt_of_le hx hle) (not_lt.mpr h4)

/-- **C57** (refuted) Two radii inserted in decreasing order are stored in decreasing order. -/
theorem C57_refuted_two (a b : K) (m n : M) (h : b < a) :
    ∃ d, NDist.insertAll NDist.empty [(a, m), (b, n)] = some d ∧ d.r = [a, b] ∧ d.msdf = [m, n] := by
  simp only [NDist.insertAll, NDist.insert, NDist.empty, findNearest]
  simp

/-- **C57** (refuted) The same three pairs, in the order 2, 3, 1, are stored with the radii out of
order and paired with other distributions than in the order 1, 2, 3. -/
theorem C57_refuted_order :
    NDist.insertAll NDist.empty [((2 : ℚ), 'b'), (3, 'c'), (1, 'a')] = some ⟨[2, 3, 1], ['a', 'b', 'c'], 1, 3, true⟩ ∧
    NDist.insertAll NDist.empty [((1 : ℚ), 'a'), (2, 'b'), (3, 'c')] = some ⟨[1, 2, 3], ['a', 'b', 'c'], 1, 3, true⟩ := by
  constructor
  · simp [NDist.insertAll, NDist.insert, NDist.empty, findNearest, searchLoop, List.insertIdx, List.modifyTailIdx,
      List.modifyTailIdx.go]
    norm_num
  · simp [NDist.insertAll, NDist.insert, NDist.empty, findNearest, searchLoop, List.insertIdx, List.modifyTailIdx,
      List.modifyTailIdx.go]
    norm_num
    exact ⟨rfl, rfl⟩

/-! ### C58: clones -/

/-- The clone of an object that holds an increasing list of pairs holds the clones of the pairs. -/
theorem clone_holds (mc : M → M) (d : NDist M K) (hinc : d.r.Pairwise (· < ·)) (hne : d.r ≠ [])
    (hsmall : d.r.length ≤ 2 ^ 30) (hlen : d.r.length = d.msdf.length) :
    ∃ d', d.clone mc = some d' ∧ d'.r = d.r ∧ d'.msdf = d.msdf.map mc ∧ d'.allow = true := by
  obtain ⟨rs, ms, lo, hi, al⟩ := d
  cases rs with
  | nil => exact absurd rfl hne
  | cons a rs =>
    cases ms with
    | nil => simp at hlen
    | cons m ms =>
      simp only [List.length_cons] at hlen hsmall
      have hlen' : rs.length = ms.length := by omega
      generalize hl : ((rs.zip ms).map fun q => (q.1, mc q.2)) = l
      have hfst : l.map Prod.fst = rs := by
        rw [← hl, List.map_map]
        have : (Prod.fst ∘ fun q : K × M => (q.1, mc q.2)) = Prod.fst := rfl
        rw [this, List.map_fst_zip (by omega)]
      have hsnd : l.map Prod.snd = ms.map mc := by
        rw [← hl, List.map_map]
        have : (Prod.snd ∘ fun q : K × M => (q.1, mc q.2)) = mc ∘ Prod.snd := rfl
        rw [this, ← List.map_map, List.map_snd_zip (by omega)]
      simp only [List.pairwise_cons] at hinc
      have hmin : ∀ q ∈ l, a < q.1 := by
        intro q hq
        refine hinc.1 q.1 ?_
        rw [← hfst]
        exact List.mem_map_of_mem hq
      have hincl : l.Pairwise (fun p q => p.1 < q.1) := by
        have := hinc.2
        rw [← hfst, List.pairwise_map] at this
        exact this
      obtain ⟨d1, e, h1, hr⟩ := holds_single (K := K) a (mc m)
      obtain ⟨d', L', e', h', p'⟩ := holds_insertAll l d1 _ h1
        (by rw [← hl]; simp only [List.length_singleton, List.length_map, List.length_zip]; omega)
        (fun q hq => by rw [hr]; exact hmin q hq)
        (fun q hq q' hq' => by
          rw [List.mem_singleton] at hq'
          rw [hq']
          exact (hmin q hq).ne) (hincl.imp (fun h => h.ne))
      have hL : L' = [(a, mc m)] ++ l := by
        refine sorted_perm_eq _ _ h'.inc ?_ p'
        simp only [List.singleton_append, List.pairwise_cons]
        exact ⟨hmin, hincl⟩
      refine ⟨d', ?_, ?_, ?_, h'.allow⟩
      · simp only [NDist.clone]
        rw [if_neg (by simp only [List.length_cons]; omega)]
        simp only [List.zip_cons_cons, List.map_cons, hl, NDist.insertAll, e, e']
      · rw [h'.r, hL]; simp [hfst]
      · rw [h'.msdf, hL]; simp [hsnd]

theorem eval_congr (ev : M → P → K) (mc : M → M) (hmc : ∀ m p, ev (mc m) p = ev m p) (d d' : NDist M K)
    (hr : d'.r = d.r) (hm : d'.msdf = d.msdf.map mc) (r shift : K) (p : P)
    (hal : d.allow = true) (hal' : d'.allow = true) : d'.eval ev r p shift = d.eval ev r p shift := by
  have hi : ∀ i : Nat, d'.msdf[i]? = (d.msdf[i]?).map mc := fun i => by rw [hm, List.getElem?_map]
  have e1 : ∀ rho, evalFirst ev d' p rho = evalFirst ev d p rho := by
    intro rho
    simp only [evalFirst, hr, hi]
    cases d.r[0]? <;> cases d.r[1]? <;> cases d.msdf[0]? <;> cases d.msdf[1]? <;> simp [hmc]
  have e2 : ∀ rho, evalLast ev d' p rho = evalLast ev d p rho := by
    intro rho
    simp only [evalLast, hr, hi]
    cases d.r[d.r.length - 1]? <;> cases d.r[d.r.length - 2]? <;> cases d.msdf[d.r.length - 1]? <;>
      cases d.msdf[d.r.length - 2]? <;> simp [hmc]
  have e3 : ∀ rho i, evalMid ev d' p rho i = evalMid ev d p rho i := by
    intro rho i
    simp only [evalMid, hr, hi]
    cases d.r[i]? <;> cases d.r[i + 1]? <;> cases d.msdf[i]? <;> cases d.msdf[i + 1]? <;> simp [hmc]
  have e4 : ∀ rho, evalOne ev d' p rho = evalOne ev d p rho := by
    intro rho
    simp only [evalOne, hi]
    cases d.msdf[0]? <;> simp [hmc]
  simp only [NDist.eval, hal, hal', hr, e1, e2, e3, e4, Bool.true_eq_false, false_and, if_false]

/-- **C58** The clone of an increasing numeric distribution that allows extrapolation, whose
momentum distributions have faithful clones, evaluates identically everywhere. -/
theorem C58_numeric_partial (ev : M → P → K) (mc : M → M) (hmc : ∀ m p, ev (mc m) p = ev m p) (d : NDist M K)
    (hinc : d.r.Pairwise (· < ·)) (hne : d.r ≠ []) (hsmall : d.r.length ≤ 2 ^ 30)
    (hlen : d.r.length = d.msdf.length) (hal : d.allow = true) :
    ∃ d', d.clone mc = some d' ∧ ∀ r p shift, d'.eval ev r p shift = d.eval ev r p shift := by
  obtain ⟨d', e, hr, hm, hal'⟩ := clone_holds mc d hinc hne hsmall hlen
  exact ⟨d', e, fun r p shift => eval_congr ev mc hmc d d' hr hm r shift p hal hal'⟩

/-- **C58** (refuted) The clone allows extrapolation even if the original does not: outside the
limits the original throws and the clone, which has the same grid, never does. -/
theorem C58_refuted_extrapolation (ev : M → P → K) (mc : M → M) (d : NDist M K)
    (hinc : d.r.Pairwise (· < ·)) (hne : d.r ≠ []) (hsmall : d.r.length ≤ 2 ^ 30)
    (hlen : d.r.length = d.msdf.length) (hal : d.allow = false) (r shift : K) (p : P)
    (hout : r - shift < d.rmin ∨ d.rmax < r - shift) :
    d.eval ev r p shift = .throws ∧ ∃ d', d.clone mc = some d' ∧ d'.eval ev r p shift ≠ .throws := by
  obtain ⟨d', e, hr, hm, hal'⟩ := clone_holds mc d hinc hne hsmall hlen
  refine ⟨C56_outside_throws ev d r shift p hal hout, d', e, ?_⟩
  have hl : ∀ a b f g x : K, lerp a b f g x ≠ .throws := by
    intro a b f g x
    simp only [lerp]
    split <;> simp
  simp only [NDist.eval, hal']
  rw [if_neg (by simp)]
  split
  · simp
  · split
    · simp only [evalOne]; split
      · exact hl _ _ _ _ _
      · simp
    · split
      · simp only [evalFirst]; split
        · split
          · simp
          · exact hl _ _ _ _ _
        · simp
      · split
        · simp only [evalLast]; split
          · exact hl _ _ _ _ _
          · simp
        · simp only [evalMid]; split
          · exact hl _ _ _ _ _
          · simp

/-- **C58** The GO+CODE clone evaluates identically; extrapolation is always allowed there (the
member has no setter and starts as true). -/
theorem C58_gocode (ev : M → P → K) (mc : M → M) (hmc : ∀ m p, ev (mc m) p = ev m p) (d : NDist M K)
    (hal : d.allow = true) (r shift : K) (p : P) : gEval ev (gClone mc d) r p shift = gEval ev d r p shift := by
  have hi : ∀ i : Nat, (gClone mc d).msdf[i]? = (d.msdf[i]?).map mc := fun i => by simp [gClone, List.getElem?_map]
  have hr : (gClone mc d).r = d.r := rfl
  have hal' : (gClone mc d).allow = true := rfl
  have e1 : ∀ rho, evalFirst ev (gClone mc d) p rho = evalFirst ev d p rho := by
    intro rho
    simp only [evalFirst, hr, hi]
    cases d.r[0]? <;> cases d.r[1]? <;> cases d.msdf[0]? <;> cases d.msdf[1]? <;> simp [hmc]
  have e2 : ∀ rho, evalLast ev (gClone mc d) p rho = evalLast ev d p rho := by
    intro rho
    simp only [evalLast, hr, hi]
    cases d.r[d.r.length - 1]? <;> cases d.r[d.r.length - 2]? <;> cases d.msdf[d.r.length - 1]? <;>
      cases d.msdf[d.r.length - 2]? <;> simp [hmc]
  have e3 : ∀ rho i, evalMid ev (gClone mc d) p rho i = evalMid ev d p rho i := by
    intro rho i
    simp only [evalMid, hr, hi]
    cases d.r[i]? <;> cases d.r[i + 1]? <;> cases d.msdf[i]? <;> cases d.msdf[i + 1]? <;> simp [hmc]
  simp only [gEval, hal, hal', hr, e1, e2, e3, Bool.true_eq_false, false_and, if_false]

end Softlib
