/-
C92: distributions made from the logarithm of their values give the values back.
-/
import Verif.Dist.LogModel
import Verif.Dist.LoadExactProps
import Mathlib.Data.List.Nodup

namespace Softlib

open Dist

noncomputable section

/-- What is assumed of the interpolation: it gives the values of a table of numbers at the points of its grids; and where the
table has minus infinity the result is minus infinity or not a number.  (Nothing is assumed at the other points of a table that has
minus infinity somewhere: the interpolation is then not a number at some of them, see C117.) -/
structure Reproduces (spline : Table → ℝ → ℝ → FV) : Prop where
  numbers : ∀ (p xi g : List ℝ) (it : Int) (j k : Nat) (a b w : ℝ), GslTable ⟨p, xi, g.map .num, it⟩ → p[j]? = some a →
    xi[k]? = some b → g[k * p.length + j]? = some w → spline ⟨p, xi, g.map .num, it⟩ a b = .num w
  infinite : ∀ (t : Table) (j k : Nat) (a b : ℝ), GslTable t → t.p[j]? = some a → t.xi[k]? = some b →
    t.f[k * t.p.length + j]? = some .negInf → spline t a b = .negInf ∨ spline t a b = .nan

/-- There are such interpolations (another one is `linearSpline`, C117). -/
example : ∃ spline, Reproduces spline := by
  classical
  refine ⟨fun t a b => t.f.getD (t.xi.idxOf b * t.p.length + t.p.idxOf a) .nan, ?_⟩
  have idx : ∀ (l : List ℝ) (i : Nat) (x : ℝ), l.Pairwise (· < ·) → l[i]? = some x → l.idxOf x = i := by
    intro l i x hl hi
    obtain ⟨hi', rfl⟩ := List.getElem?_eq_some_iff.mp hi
    exact List.Nodup.idxOf_getElem (show l.Nodup from hl.imp fun h => ne_of_lt h) i hi'
  constructor
  · intro p xi g it j k a b w hg ha hb hw
    simp only [idx p j a hg.incP ha, idx xi k b hg.incXi hb, List.getD_eq_getElem?_getD, List.getElem?_map, hw, Option.map_some,
      Option.getD_some]
  · intro t j k a b hg ha hb hw
    simp only [idx t.p j a hg.incP ha, idx t.xi k b hg.incXi hb, List.getD_eq_getElem?_getD, hw, Option.getD_some]
    exact Or.inl trivial

theorem ends_of_sorted (l : List ℝ) (h : l.Pairwise (· < ·)) (j : Nat) (a : ℝ) (ha : l[j]? = some a) :
    ∃ lo hi, l.head? = some lo ∧ l.getLast? = some hi ∧ lo ≤ a ∧ a ≤ hi := by
  obtain ⟨hj, rfl⟩ := List.getElem?_eq_some_iff.mp ha
  have hpos : 0 < l.length := by omega
  have key : ∀ i k, (hi : i < l.length) → (hk : k < l.length) → i ≤ k → l[i] ≤ l[k] := by
    intro i k hi hk hik
    rcases hik.lt_or_eq with h' | h'
    · exact le_of_lt (List.pairwise_iff_getElem.mp h i k hi hk h')
    · subst h'; exact le_rfl
  refine ⟨l[0], l[l.length - 1], ?_, ?_, key 0 j hpos hj (by omega), key j (l.length - 1) hj (by omega) (by omega)⟩
  · rw [List.head?_eq_getElem?, List.getElem?_eq_getElem hpos]
  · rw [List.getLast?_eq_getElem?, List.getElem?_eq_getElem (by omega)]

/-- The momentum distribution of a table of logarithms. -/
theorem log_at (spline : Table → ℝ → ℝ → FV) (p xi : List ℝ) (g : List FV) (it : Int) (m : NMom)
    (hm : NMom.initialize ⟨p, xi, g, it⟩ false false = .ok m) (j k : Nat) (a b : ℝ) (ha : p[j]? = some a) (hb : xi[k]? = some b) :
    GslTable ⟨p, xi, g, it⟩ ∧ m.setLog.eval spline a b = unlog true (spline ⟨p, xi, g, it⟩ a b) := by
  obtain ⟨hg, h1, h2, h3, h4, h5, h6, h7⟩ := (C59_accepts_iff _ _ _ _).mp hm
  obtain ⟨p0, p1, e1, e2, l1, l2⟩ := ends_of_sorted p hg.incP j a ha
  obtain ⟨x0, x1, e3, e4, l3, l4⟩ := ends_of_sorted xi hg.incXi k b hb
  simp only [e1, e2, e3, e4, Option.some.injEq] at h1 h2 h3 h4
  refine ⟨hg, ?_⟩
  rw [C59_inside spline m.setLog a b]
  · show unlog true (spline m.table a (if m.flip = true then -b else b)) = _
    rw [h5, h7, if_neg (by simp)]
  · refine ⟨?_, ?_, ?_, ?_⟩
    · show m.pmin ≤ a; linarith
    · show a ≤ m.pmax; linarith
    · show m.ximin ≤ (if m.flip = true then -b else b); rw [h7, if_neg (by simp)]; linarith
    · show (if m.flip = true then -b else b) ≤ m.ximax; rw [h7, if_neg (by simp)]; linarith

/-- … of numbers. -/
theorem log_value (spline : Table → ℝ → ℝ → FV) (hsp : Reproduces spline) (p xi g : List ℝ) (it : Int) (m : NMom)
    (hm : NMom.initialize ⟨p, xi, g.map .num, it⟩ false false = .ok m)
    (j k : Nat) (a b w : ℝ) (ha : p[j]? = some a) (hb : xi[k]? = some b) (hw : g[k * p.length + j]? = some w) :
    m.setLog.eval spline a b = .num (Real.exp w) := by
  obtain ⟨hg, e⟩ := log_at spline p xi _ it m hm j k a b ha hb
  rw [e, hsp.numbers p xi g it j k a b w hg ha hb hw]
  rfl

/-- … where it is minus infinity. -/
theorem log_zero (spline : Table → ℝ → ℝ → FV) (hsp : Reproduces spline) (p xi : List ℝ) (g : List FV) (it : Int) (m : NMom)
    (hm : NMom.initialize ⟨p, xi, g, it⟩ false false = .ok m)
    (j k : Nat) (a b : ℝ) (ha : p[j]? = some a) (hb : xi[k]? = some b) (hw : g[k * p.length + j]? = some .negInf) :
    m.setLog.eval spline a b = .num 0 := by
  obtain ⟨hg, e⟩ := log_at spline p xi _ it m hm j k a b ha hb
  rw [e]
  rcases hsp.infinite _ j k a b hg ha hb hw with h | h <;> rw [h] <;> rfl

/-- Logarithms of positive values are numbers. -/
theorem clampLog_pos (s : List ℝ) (h : ∀ v ∈ s, 0 < v) : (s.map FV.num).map clampLog = (s.map Real.log).map FV.num := by
  rw [List.map_map, List.map_map]
  refine List.map_congr_left fun v hv => ?_
  show clampLog (.num v) = .num (Real.log v)
  simp only [clampLog, if_neg (not_le.mpr (h v hv))]

theorem initSlices_ok (p xi : List ℝ) (it : Int) : ∀ (ss : List (List FV)) (ms : List NMom), initSlices p xi it ss = .ok ms →
    ms.length = ss.length ∧ ∀ (i : Nat) s, ss[i]? = some s →
      ∃ m, NMom.initialize ⟨p, xi, s, it⟩ false false = .ok m ∧ ms[i]? = some m.setLog := by
  intro ss
  induction ss with
  | nil =>
    intro ms h
    simp only [initSlices, GRes.ok.injEq] at h
    subst h
    simp
  | cons s ss ih =>
    intro ms h
    simp only [initSlices] at h
    split at h
    · cases h
    · cases h
    · cases h
    · rename_i m hm
      split at h
      · cases h
      · cases h
      · cases h
      · rename_i ms' hms
        simp only [GRes.ok.injEq] at h
        subst h
        obtain ⟨h1, h2⟩ := ih ms' hms
        refine ⟨by simp [h1], ?_⟩
        intro i s' hs'
        rcases i with _ | i
        · simp only [List.getElem?_cons_zero, Option.some.injEq] at hs'
          subst hs'
          exact ⟨m, hm, rfl⟩
        · simpa using h2 i s' (by simpa using hs')

/-- **C92** A distribution made by `InitializeLog` from an array of numbers has, for every radius and at
every point of the grids, the value in the array if all values at that radius are positive; where the value is
not positive it is zero in any case.  The array of the
caller is unchanged if a new one was to be allocated, otherwise it has the logarithms. -/
theorem C92_initialize_partial (spline : Table → ℝ → ℝ → FV) (hsp : Reproduces spline) (alloc : Bool) (rs p xi f : List ℝ) (it : Int)
    (d : NDist NMom ℝ) (after : List FV) (h : initializeLog alloc rs p xi (f.map .num) it = .ok (d, after)) :
    (∀ (i j k : Nat) (a b v : ℝ), i < rs.length → p[j]? = some a → xi[k]? = some b →
      f[(i * xi.length + k) * p.length + j]? = some v →
      ∃ m, d.msdf[i]? = some m ∧ (v ≤ 0 → m.eval spline a b = .num 0) ∧
        ((∀ (n : Nat) (w : ℝ), n < p.length * xi.length → f[i * (p.length * xi.length) + n]? = some w → 0 < w) →
          m.eval spline a b = .num v)) ∧ d.msdf.length = rs.length ∧
    (alloc = true → after = f.map .num) ∧
    (alloc = false → after = f.map fun v => if v ≤ 0 then .negInf else .num (Real.log v)) := by
  unfold initializeLog at h
  split at h
  · cases h
  · split at h
    · cases h
    · rename_i hlen
      split at h
      · cases h
      · cases h
      · rename_i d0 hd0
        split at h
        · cases h
        · cases h
        · cases h
        · rename_i ms hms
          simp only [GRes.ok.injEq, Prod.mk.injEq] at h
          obtain ⟨rfl, rfl⟩ := h
          obtain ⟨h1, h2⟩ := initSlices_ok p xi it _ ms hms
          refine ⟨?_, by simpa [slicesOf] using h1, ?_, ?_⟩
          · intro i j k a b v hi ha hb hv
            have hj : j < p.length := (List.getElem?_eq_some_iff.mp ha).1
            have hk : k < xi.length := (List.getElem?_eq_some_iff.mp hb).1
            obtain ⟨m, hm, hmi⟩ := h2 i (((f.map FV.num).map clampLog).drop (i * (p.length * xi.length)) |>.take (p.length * xi.length))
              (by simp [slicesOf, hi])
            have hin : k * p.length + j < p.length * xi.length := by
              calc k * p.length + j < k * p.length + p.length := by omega
                _ = (k + 1) * p.length := by ring
                _ ≤ xi.length * p.length := Nat.mul_le_mul_right _ hk
                _ = p.length * xi.length := Nat.mul_comm _ _
            have hidx : i * (p.length * xi.length) + (k * p.length + j) = (i * xi.length + k) * p.length + j := by ring
            refine ⟨m.setLog, hmi, ?_, ?_⟩
            · intro h0
              refine log_zero spline hsp p xi _ it m hm j k a b ha hb ?_
              rw [List.getElem?_take_of_lt hin, List.getElem?_drop, List.getElem?_map, List.getElem?_map, hidx, hv]
              simp [clampLog, h0]
            · intro hpos
              have hs : (((f.map FV.num).map clampLog).drop (i * (p.length * xi.length))).take (p.length * xi.length) =
                  ((((f.drop (i * (p.length * xi.length))).take (p.length * xi.length)).map Real.log).map FV.num) := by
                rw [← clampLog_pos, List.map_take, List.map_take, List.map_drop, List.map_drop]
                intro w hw
                obtain ⟨n, hn⟩ := List.mem_iff_getElem?.mp hw
                have hn' : n < p.length * xi.length := by
                  have := (List.getElem?_eq_some_iff.mp hn).1
                  rw [List.length_take] at this
                  omega
                rw [List.getElem?_take_of_lt hn', List.getElem?_drop] at hn
                exact hpos n w hn' hn
              rw [hs] at hm
              have hv0 : 0 < v := hpos (k * p.length + j) v hin (by rw [hidx]; exact hv)
              rw [log_value spline hsp p xi _ it m hm j k a b (Real.log v) ha hb
                (by rw [List.getElem?_map, List.getElem?_take_of_lt hin, List.getElem?_drop, hidx, hv]; rfl), Real.exp_log hv0]
          · intro ha; simp [ha]
          · intro ha; simp [ha, clampLog, Function.comp_def]

/-- Making the distribution succeeds for strictly increasing grids, as long as the caller's array is
to be used or there is one radius. -/
theorem C92_initialize_succeeds (alloc : Bool) (rs p xi : List ℝ) (f : List FV) (it : Int) (hr : rs.Pairwise (· < ·)) (hr0 : rs ≠ [])
    (hp : p.Pairwise (· < ·)) (hp0 : (if it = 0 then 2 else 4) ≤ p.length) (hx : xi.Pairwise (· < ·))
    (hx0 : (if it = 0 then 2 else 4) ≤ xi.length) (hlen : f.length = rs.length * (p.length * xi.length)) (ha : alloc = false ∨ rs.length = 1) :
    ∃ d after, initializeLog alloc rs p xi f it = .ok (d, after) := by
  have l1 : 0 < p.length := by split at hp0 <;> omega
  have l2 : 0 < xi.length := by split at hx0 <;> omega
  obtain ⟨p0, p1, e1, e2, -, -⟩ := ends_of_sorted p hp 0 _ (List.getElem?_eq_getElem l1)
  obtain ⟨x0, x1, e3, e4, -, -⟩ := ends_of_sorted xi hx 0 _ (List.getElem?_eq_getElem l2)
  have hsl : ∀ ss : List (List FV), (∀ s ∈ ss, p.length * xi.length ≤ s.length) → ∃ ms, initSlices p xi it ss = .ok ms := by
    intro ss hss
    induction ss with
    | nil => exact ⟨[], rfl⟩
    | cons s ss ih =>
      obtain ⟨ms, h⟩ := ih fun s' hs' => hss s' (List.mem_cons_of_mem _ hs')
      obtain ⟨m, hm, -⟩ := C59_accepts ⟨p, xi, s, it⟩ false false p0 p1 x0 x1 e1 e2 e3 e4 ⟨hp0, hx0, hp, hx, hss s (by simp)⟩
      exact ⟨m.setLog :: ms, by simp only [initSlices, hm, h]⟩
  have hmono : ∀ (a : ℝ) (l : List ℝ), (a :: l).Pairwise (· < ·) → monotoneFrom true a l = true := by
    intro a l
    induction l generalizing a with
    | nil => intro _; rfl
    | cons b l ih =>
      intro h
      have hab : a < b := (List.pairwise_cons.mp h).1 b (by simp)
      simp only [monotoneFrom]
      rw [if_neg (by rintro (⟨-, h'⟩ | ⟨h', -⟩); exacts [absurd h' (not_le.mpr hab), by cases h']),
        ih b (List.pairwise_cons.mp h).2]
  have hrad : ∃ d, NDist.initialize rs ([] : List NMom) = .ok d := by
    cases rs with
    | nil => exact absurd rfl hr0
    | cons r0 rest =>
      match rest, hr with
      | [], hr => exact ⟨_, rfl⟩
      | [r1], hr =>
        simp only [NDist.initialize, hmono r0 [r1] hr, Bool.true_eq_false, if_false]
        exact ⟨_, rfl⟩
      | r1 :: r2 :: rest, hr =>
        have hasc : decide (r1 ≥ r0) = true := decide_eq_true (le_of_lt ((List.pairwise_cons.mp hr).1 r1 (by simp)))
        simp only [NDist.initialize, hasc, hmono r0 (r1 :: r2 :: rest) hr, Bool.true_eq_false, if_false]
        exact ⟨_, rfl⟩
  obtain ⟨d, hd⟩ := hrad
  obtain ⟨ms, hms⟩ := hsl (slicesOf rs.length (p.length * xi.length) (f.map clampLog)) (by
    intro s hs
    simp only [slicesOf, List.mem_map, List.mem_range] at hs
    obtain ⟨i, hi, rfl⟩ := hs
    rw [List.length_take, List.length_drop, List.length_map, hlen]
    have : (i + 1) * (p.length * xi.length) ≤ rs.length * (p.length * xi.length) := Nat.mul_le_mul_right _ hi
    rw [Nat.add_mul, Nat.one_mul] at this
    omega)
  unfold initializeLog
  rw [if_neg (by rintro ⟨h1, h2⟩; rcases ha with h | h <;> [simp [h] at h1; omega]), if_neg (by omega), hd, hms]
  exact ⟨_, _, rfl⟩

/-- **C92** (refuted for a new array with two radii or more) Values of the new array are used before they
are set. -/
theorem C92_refuted_alloc (rs p xi : List ℝ) (f : List FV) (it : Int) (h : 2 ≤ rs.length) :
    initializeLog true rs p xi f it = .ub := by
  unfold initializeLog
  rw [if_pos ⟨rfl, h⟩]

/-- **C92** A distribution inserted with `InsertMomentumSpaceDistributionLog` (without a new array) has the
values in the array at the points of the grids if they are all positive, and zero where the value is not positive in any case;
the array has the logarithms afterwards. -/
theorem C92_insert_partial (spline : Table → ℝ → ℝ → FV) (hsp : Reproduces spline) (d d' : NDist NMom ℝ) (r : ℝ) (p xi f : List ℝ) (it : Int)
    (after : List FV) (h : insertLog false d r p xi (f.map .num) it = .ok (d', after)) :
    (after = f.map fun v => if v ≤ 0 then .negInf else .num (Real.log v)) ∧
    ∃ m, d.insert r m = some d' ∧ m ∈ d'.msdf ∧ ∀ (j k : Nat) (a b v : ℝ), p[j]? = some a → xi[k]? = some b →
      f[k * p.length + j]? = some v → (v ≤ 0 → m.eval spline a b = .num 0) ∧ ((∀ w ∈ f, 0 < w) → m.eval spline a b = .num v) := by
  unfold insertLog at h
  split at h
  · cases h
  · simp only [Bool.false_eq_true, if_false] at h
    split at h
    · cases h
    · cases h
    · cases h
    · rename_i m hm
      split at h
      · cases h
      · rename_i d2 hd2
        simp only [GRes.ok.injEq, Prod.mk.injEq] at h
        obtain ⟨rfl, rfl⟩ := h
        refine ⟨by simp [clampLog, Function.comp_def], m.setLog, hd2, ?_, ?_⟩
        · unfold NDist.insert at hd2
          split at hd2
          · cases hd2
          · simp only at hd2
            split at hd2
            · cases hd2
            · rename_i hle
              simp only [Option.some.injEq] at hd2
              subst hd2
              exact (List.mem_insertIdx (not_lt.mp hle)).mpr (Or.inl rfl)
        · intro j k a b v ha hb hv
          refine ⟨fun h0 => ?_, fun hpos => ?_⟩
          · refine log_zero spline hsp p xi _ it m hm j k a b ha hb ?_
            rw [List.getElem?_map, List.getElem?_map, hv]
            simp [clampLog, h0]
          · rw [clampLog_pos f hpos] at hm
            rw [log_value spline hsp p xi _ it m hm j k a b (Real.log v) ha hb (by rw [List.getElem?_map, hv]; rfl),
              Real.exp_log (hpos v (List.mem_of_getElem? hv))]

/-- **C92** (refuted for a new array) With a new array the values themselves are interpolated instead of
their logarithms: at the points of the grids the distribution is the exponential of the value, which is
never the value. -/
theorem C92_refuted_insert_alloc (spline : Table → ℝ → ℝ → FV) (hsp : Reproduces spline) (d d' : NDist NMom ℝ) (r : ℝ)
    (p xi f : List ℝ) (it : Int) (after : List FV) (h : insertLog true d r p xi (f.map .num) it = .ok (d', after)) :
    after = f.map .num ∧ ∃ m, d.insert r m = some d' ∧ ∀ (j k : Nat) (a b v : ℝ), p[j]? = some a → xi[k]? = some b →
      f[k * p.length + j]? = some v → m.eval spline a b = .num (Real.exp v) ∧ Real.exp v ≠ max v 0 := by
  unfold insertLog at h
  split at h
  · cases h
  · simp only [if_true] at h
    split at h
    · cases h
    · cases h
    · cases h
    · rename_i m hm
      split at h
      · cases h
      · rename_i d2 hd2
        simp only [GRes.ok.injEq, Prod.mk.injEq] at h
        obtain ⟨rfl, rfl⟩ := h
        refine ⟨rfl, m.setLog, hd2, ?_⟩
        intro j k a b v ha hb hv
        refine ⟨?_, ?_⟩
        · exact log_value spline hsp p xi f it m hm j k a b v ha hb hv
        · have h1 := Real.add_one_le_exp v
          have h2 := Real.exp_pos v
          rcases le_total v 0 with h0 | h0
          · rw [max_eq_right h0]; exact ne_of_gt h2
          · rw [max_eq_left h0]; linarith

/-- The insertion of a table with increasing grids succeeds whenever the insertion in the radial grid
does. -/
theorem C92_insert_succeeds (alloc : Bool) (d : NDist NMom ℝ) (r : ℝ) (p xi : List ℝ) (f : List FV) (it : Int)
    (hp : p.Pairwise (· < ·)) (hp0 : (if it = 0 then 2 else 4) ≤ p.length) (hx : xi.Pairwise (· < ·))
    (hx0 : (if it = 0 then 2 else 4) ≤ xi.length) (hlen : f.length = p.length * xi.length) (hins : ∀ m, (d.insert r m).isSome = true) :
    ∃ d' after, insertLog alloc d r p xi f it = .ok (d', after) := by
  have l1 : 0 < p.length := by split at hp0 <;> omega
  have l2 : 0 < xi.length := by split at hx0 <;> omega
  obtain ⟨p0, p1, e1, e2, -, -⟩ := ends_of_sorted p hp 0 _ (List.getElem?_eq_getElem l1)
  obtain ⟨x0, x1, e3, e4, -, -⟩ := ends_of_sorted xi hx 0 _ (List.getElem?_eq_getElem l2)
  obtain ⟨m, hm, -⟩ := C59_accepts ⟨p, xi, if alloc then f else f.map clampLog, it⟩ false false p0 p1 x0 x1 e1 e2 e3 e4
    ⟨hp0, hx0, hp, hx, by cases alloc <;> simp [hlen]⟩
  obtain ⟨d', hd'⟩ := Option.isSome_iff_exists.mp (hins m.setLog)
  unfold insertLog
  rw [if_neg (by omega)]
  simp only [hm, hd']
  exact ⟨_, _, rfl⟩

/-- Using the same array for a second radius (without new arrays) takes the logarithm twice: a value
`v` gives `log v` if all values are above 1, and where it is at most 1 it gives zero. -/
theorem C92_array_used_twice (spline : Table → ℝ → ℝ → FV) (hsp : Reproduces spline) (d d1 d2 : NDist NMom ℝ) (r1 r2 : ℝ)
    (p xi f : List ℝ) (it : Int) (after after2 : List FV)
    (h1 : insertLog false d r1 p xi (f.map .num) it = .ok (d1, after)) (h2 : insertLog false d1 r2 p xi after it = .ok (d2, after2)) :
    ∃ m, d1.insert r2 m = some d2 ∧ ∀ (j k : Nat) (a b v : ℝ), p[j]? = some a → xi[k]? = some b →
      f[k * p.length + j]? = some v → (v ≤ 1 → m.eval spline a b = .num 0) ∧
        ((∀ w ∈ f, 1 < w) → m.eval spline a b = .num (Real.log v)) := by
  obtain ⟨ha, -⟩ := C92_insert_partial spline hsp d d1 r1 p xi f it after h1
  unfold insertLog at h2
  split at h2
  · cases h2
  · simp only [Bool.false_eq_true, if_false] at h2
    split at h2
    · cases h2
    · cases h2
    · cases h2
    · rename_i m hm
      split at h2
      · cases h2
      · rename_i d3 hd3
        simp only [GRes.ok.injEq, Prod.mk.injEq] at h2
        obtain ⟨rfl, rfl⟩ := h2
        refine ⟨m.setLog, hd3, ?_⟩
        intro j k a b v hpa hxb hv
        refine ⟨fun h0 => ?_, fun hbig => ?_⟩
        · refine log_zero spline hsp p xi _ it m hm j k a b hpa hxb ?_
          rw [ha, List.getElem?_map, List.getElem?_map, hv]
          simp only [Option.map_some, Option.some.injEq]
          by_cases hz : v ≤ 0
          · rw [if_pos hz]; rfl
          · rw [if_neg hz]
            simp only [clampLog]
            rw [if_pos (Real.log_nonpos (not_le.mp hz).le h0)]
        · have e : after = (f.map Real.log).map FV.num := by
            rw [ha, List.map_map]
            refine List.map_congr_left fun w hw => ?_
            rw [if_neg (by have := hbig w hw; linarith)]
            rfl
          rw [e, clampLog_pos] at hm
          · rw [log_value spline hsp p xi _ it m hm j k a b (Real.log (Real.log v)) hpa hxb
              (by rw [List.getElem?_map, List.getElem?_map, hv]; rfl), Real.exp_log (Real.log_pos (hbig v (List.mem_of_getElem? hv)))]
          · intro w hw
            obtain ⟨u, hu, rfl⟩ := List.mem_map.mp hw
            exact Real.log_pos (hbig u hu)

/-- A first insertion is possible. -/
example : ∃ d' after, insertLog true NDist.empty 1 [1, 2] [0, 1] ([1, 2, 3, 4].map FV.num) 0 = .ok (d', after) :=
  C92_insert_succeeds true NDist.empty 1 [1, 2] [0, 1] _ 0 (by norm_num) (by simp) (by norm_num) (by simp) rfl
    (fun m => by simp [NDist.insert, NDist.empty, findNearest])

example : ∃ d after, initializeLog false [1, 2] [1, 2] [0, 1] ([1, 2, 3, 4, 5, 6, 7, 8].map FV.num) 0 = .ok (d, after) :=
  C92_initialize_succeeds false [1, 2] [1, 2] [0, 1] _ 0 (by norm_num) (by simp) (by norm_num) (by simp) (by norm_num) (by simp)
    rfl (Or.inl rfl)

end

end Softlib
