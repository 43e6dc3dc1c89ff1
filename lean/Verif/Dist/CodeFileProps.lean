/-
C120: CODE distributions are loaded as stored.  Model: CodeFileModel.lean.
-/
import Verif.Dist.CodeFileModel
import Verif.Dist.CodeProps
import Verif.Dist.LinearProps
import Mathlib.Analysis.SpecialFunctions.Pow.Real

namespace Softlib

open Dist

noncomputable section

/-- What is in a file: momenta `y` (in thermal momenta) and their unit `delta`, reference density and temperature, and the
Legendre modes of every time step, `f t k j` being mode `k` at momentum `j`. -/
structure CodeData where
  np : Nat
  nleg : Nat
  nt : Nat
  y : Nat → ℝ
  delta : ℝ
  nref : ℝ
  Tref : ℝ
  f : Nat → Nat → Nat → ℝ

/-- The file `F` contains `d`. -/
structure CodeFileOf (F : CodeFile) (d : CodeData) : Prop where
  y : F.y = some ⟨1, d.np, (List.range d.np).map d.y⟩ ∨ F.y = some ⟨d.np, 1, (List.range d.np).map d.y⟩
  delta : F.delta = some ⟨1, 1, [d.delta]⟩
  nref : (F.nref = none ∧ d.nref = 1) ∨ F.nref = some ⟨1, 1, [d.nref]⟩
  Tref : (F.Tref = none ∧ d.Tref = 1) ∨ F.Tref = some ⟨1, 1, [d.Tref]⟩
  Nxi : F.Nxi = some ⟨1, 1, [(d.nleg : ℝ)]⟩
  f : ∃ data, F.f = some ⟨d.nt, d.np * d.nleg, data⟩ ∧ data.length = d.nt * (d.np * d.nleg) ∧
    ∀ t k j, t < d.nt → k < d.nleg → j < d.np → data[t * (d.np * d.nleg) + (k * d.np + j)]? = some (d.f t k j)

/-- The sizes are positive and fit an `int`. -/
structure CodeSizes (d : CodeData) : Prop where
  np : 1 ≤ d.np
  nleg : 1 ≤ d.nleg
  total : d.np * d.nleg < 2147483648
  nt : d.nt < 2147483648

/-- Momentum `j`. -/
def CodeData.p (d : CodeData) (j : Nat) : ℝ := d.y j * d.delta

/-- Mode `k` at momentum `j`, in physical units. -/
def CodeData.mode (d : CodeData) (me : ℝ) (t k j : Nat) : ℝ := d.nref / (2 * Real.pi * me * d.Tref) ^ (3 / 2 : ℝ) * d.f t k j

/-- The sum of the Legendre series at momentum `j`.  CODE counts the pitch from the opposite direction. -/
def CodeData.sum (d : CodeData) (me : ℝ) (t j : Nat) (xi : ℝ) : ℝ := ∑ k ∈ Finset.range d.nleg, d.mode me t k j * legP (-xi) k

/-- The time index `time` is step `t`, counted from the beginning or from the end. -/
def IsTime (nt : Nat) (time : Int) (t : Nat) : Prop := t < nt ∧ (time = t ∨ time = (t : Int) - nt)

theorem codeTime_is {nt : Nat} {time : Int} {t : Nat} (h : IsTime nt time t) : codeTime nt time = some (t : Int) := by
  obtain ⟨h1, h2⟩ := h
  unfold codeTime
  rcases h2 with rfl | rfl
  · simp only
    rw [if_neg (show ¬ ((t : Int) < 0) by omega), if_neg (by omega)]
  · simp only
    rw [if_pos (show (t : Int) - nt < 0 by omega), if_neg (by omega)]
    congr 1
    omega

/-- The arrays that are made from the file. -/
def CodeData.momenta (d : CodeData) : List ℝ := (List.range d.np).map d.p

theorem momenta_get (d : CodeData) {j : Nat} (h : j < d.np) : d.momenta[j]? = some (d.p j) := by
  simp [CodeData.momenta, h]

theorem momenta_length (d : CodeData) : d.momenta.length = d.np := by simp [CodeData.momenta]

theorem codeNumber_one (v : ℝ) : codeNumber (some ⟨1, 1, [v]⟩) = .ok v := by
  simp [codeNumber, codeGet, CodeRes.bind]

theorem realToInt_nat {n : Nat} (h : n < 2147483648) : realToInt (n : ℝ) = some (n : Int) := by
  unfold realToInt
  rw [if_pos (Nat.cast_nonneg n), Int.floor_natCast]
  simp only
  rw [if_pos (by omega)]

theorem norm_eq {d : ℝ} (h : 0 < d) : Real.sqrt d * d = d ^ (3 / 2 : ℝ) := by
  rw [Real.sqrt_eq_rpow]
  nth_rw 2 [← Real.rpow_one d]
  rw [← Real.rpow_add h]
  norm_num

/-- What is read of a file, up to the time step. -/
theorem codeLoad_upto (me : ℝ) (spl : Int → List ℝ → List ℝ → ℝ → ℝ) (garbage : Nat → List ℝ) {F : CodeFile} {d : CodeData}
    (hF : CodeFileOf F d) (hs : CodeSizes d) (hnt : 1 ≤ d.nt) (time : Int) (itype : Int) :
    (codeTime d.nt time = none → codeLoad me spl garbage F time itype = .throws) ∧
    ∀ t, IsTime d.nt time t → ∃ row : List ℝ, row.length = d.np * d.nleg ∧
      (∀ k j, k < d.nleg → j < d.np → row[k * d.np + j]? = some (d.f t k j)) ∧
      codeLoad me spl garbage F time itype = if 2 * Real.pi * me * d.Tref ≤ 0 then .nonfinite else
        (codeInterp spl itype d.momenta (row.map (· * (d.nref / (Real.sqrt (2 * Real.pi * me * d.Tref) * (2 * Real.pi * me * d.Tref))))) d.nleg 0).bind
          fun ms => .ok (Code.new (d.momenta.headD 0) (d.momenta.getLastD 0) ms (garbage d.nleg)) := by
  obtain ⟨data, hf, hlen, hdata⟩ := hF.f
  have hnp := hs.np
  have hnl := hs.nleg
  have htot := hs.total
  have hnt' := hs.nt
  have b1 : d.np < 2147483648 := lt_of_le_of_lt (Nat.le_mul_of_pos_right _ hnl) htot
  have b2 : d.nleg < 2147483648 := lt_of_le_of_lt (Nat.le_mul_of_pos_left _ hnp) htot
  have hy : ∃ y : Mat ℝ, codeGet F.y = .ok y ∧ y.vecLen = some d.np ∧ y.data = (List.range d.np).map d.y := by
    rcases hF.y with h | h
    · exact ⟨⟨1, d.np, (List.range d.np).map d.y⟩, by simp [h, codeGet], by simp [Mat.vecLen], rfl⟩
    · refine ⟨⟨d.np, 1, (List.range d.np).map d.y⟩, ?_, ?_, rfl⟩
      · rw [h, codeGet, if_neg (by simp; omega)]
      · unfold Mat.vecLen
        by_cases h1 : d.np = 1
        · simp [h1]
        · simp [h1]
  obtain ⟨y, hy1, hy2, hy3⟩ := hy
  have hnref : codeReference F.nref = .ok d.nref := by
    rcases hF.nref with ⟨h, e⟩ | h
    · rw [h, e]; rfl
    · rw [h]; exact codeNumber_one _
  have hTref : codeReference F.Tref = .ok d.Tref := by
    rcases hF.Tref with ⟨h, e⟩ | h
    · rw [h, e]; rfl
    · rw [h]; exact codeNumber_one _
  have hfr : codeGet F.f = .ok ⟨d.nt, d.np * d.nleg, data⟩ := by
    have : d.nt ≠ 0 := by omega
    rw [hf, codeGet, if_neg this]
  have e0 : codeLoad me spl garbage F time itype =
      match codeTime d.nt time with
      | none => .throws
      | some t =>
        if 2 * Real.pi * me * d.Tref ≤ 0 then .nonfinite else
        if ((data.drop (t.toNat * (d.np * d.nleg))).take (d.np * d.nleg)).length < d.np * d.nleg then .ub else
        (codeInterp spl itype d.momenta (((data.drop (t.toNat * (d.np * d.nleg))).take (d.np * d.nleg)).map
          (· * (d.nref / (Real.sqrt (2 * Real.pi * me * d.Tref) * (2 * Real.pi * me * d.Tref))))) d.nleg 0).bind
          fun ms => .ok (Code.new (d.momenta.headD 0) (d.momenta.getLastD 0) ms (garbage d.nleg)) := by
    unfold codeLoad
    rw [hy1]
    simp only [CodeRes.bind]
    rw [hy2]
    simp only
    rw [if_neg (by omega), hF.delta, codeNumber_one, hnref, hTref, hF.Nxi, codeNumber_one]
    simp only
    rw [realToInt_nat b2]
    simp only
    rw [hy3, if_neg (by simp), hfr]
    simp only
    rw [if_neg (by rw [not_not]; push_cast; rw [Int.emod_eq_of_lt (by positivity) (by exact_mod_cast lt_of_lt_of_le htot (by norm_num))]),
      if_neg (by omega)]
    cases codeTime d.nt time with
    | none => rfl
    | some t =>
      simp only
      have e1 : ((d.np : Int) * (d.nleg : Int)).toNat = d.np * d.nleg := by rw [← Nat.cast_mul, Int.toNat_natCast]
      have e2 : ((d.nleg : Int) % 4294967296).toNat = d.nleg := by
        rw [Int.emod_eq_of_lt (by positivity) (by exact_mod_cast lt_of_lt_of_le b2 (by norm_num)), Int.toNat_natCast]
      have e3 : ¬ ((d.np : Int) * (d.nleg : Int) < -2147483648 ∨ 2147483648 ≤ (d.np : Int) * (d.nleg : Int)) := by
        rw [← Nat.cast_mul]; omega
      have e4 : ¬ ((d.np : Int) * (d.nleg : Int) < 0) := by rw [← Nat.cast_mul]; omega
      have e5 : List.map (· * d.delta) (((List.range d.np).map d.y).take d.np) = d.momenta := by
        rw [List.take_of_length_le (by simp), List.map_map]
        rfl
      have e6 : 0 < (d.np : Int) * (d.nleg : Int) := by
        rw [← Nat.cast_mul]; exact_mod_cast Nat.mul_pos hnp hnl
      rw [if_neg e3, if_neg e4, e1, e2, e5]
      by_cases hd : 2 * Real.pi * me * d.Tref ≤ 0
      · rw [if_pos ⟨hd, e6⟩, if_pos hd]
      · rw [if_neg (fun h => hd h.1), if_neg hd]
  refine ⟨fun h => by rw [e0, h], fun t ht => ?_⟩
  have htn : t < d.nt := ht.1
  have hbound : t * (d.np * d.nleg) + d.np * d.nleg ≤ data.length := by
    rw [hlen]
    calc t * (d.np * d.nleg) + d.np * d.nleg = (t + 1) * (d.np * d.nleg) := by ring
      _ ≤ d.nt * (d.np * d.nleg) := Nat.mul_le_mul_right _ htn
  have hrow : ((data.drop (t * (d.np * d.nleg))).take (d.np * d.nleg)).length = d.np * d.nleg := by
    rw [List.length_take, List.length_drop]; omega
  refine ⟨(data.drop (t * (d.np * d.nleg))).take (d.np * d.nleg), hrow, ?_, ?_⟩
  · intro k j hk hj
    have hkj : k * d.np + j < d.np * d.nleg := by
      calc k * d.np + j < k * d.np + d.np := by omega
        _ = (k + 1) * d.np := by ring
        _ ≤ d.nleg * d.np := Nat.mul_le_mul_right _ hk
        _ = d.np * d.nleg := Nat.mul_comm _ _
    rw [List.getElem?_take_of_lt hkj, List.getElem?_drop, hdata t k j htn hk hj]
  · rw [e0, codeTime_is ht]
    simp only [Int.toNat_natCast]
    rw [if_neg (show ¬ _ < _ by rw [hrow]; omega)]

/-- Up to the interpolation, a file with positive temperature is read as stored. -/
theorem codeLoad_read {me : ℝ} (hme : 0 < me) (spl : Int → List ℝ → List ℝ → ℝ → ℝ) (garbage : Nat → List ℝ) {F : CodeFile} {d : CodeData}
    (hF : CodeFileOf F d) (hs : CodeSizes d) (hT : 0 < d.Tref) {time : Int} {t : Nat} (ht : IsTime d.nt time t) (itype : Int) :
    ∃ ff : List ℝ, ff.length = d.np * d.nleg ∧ (∀ k j, k < d.nleg → j < d.np → ff[k * d.np + j]? = some (d.mode me t k j)) ∧
      codeLoad me spl garbage F time itype = (codeInterp spl itype d.momenta ff d.nleg 0).bind fun ms =>
        .ok (Code.new (d.momenta.headD 0) (d.momenta.getLastD 0) ms (garbage d.nleg)) := by
  obtain ⟨row, h1, h2, h3⟩ := (codeLoad_upto me spl garbage hF hs (by have := ht.1; omega) time itype).2 t ht
  have hd : 0 < 2 * Real.pi * me * d.Tref := by have := Real.pi_pos; positivity
  rw [if_neg (not_le.2 hd)] at h3
  refine ⟨_, by rw [List.length_map, h1], fun k j hk hj => ?_, h3⟩
  rw [List.getElem?_map, h2 k j hk hj, Option.map_some, CodeData.mode, norm_eq hd, mul_comm]

theorem codeInterp_ok (spl : Int → List ℝ → List ℝ → ℝ → ℝ) (itype : Int) (pp ff : List ℝ) {least : Nat} (hl : codeLeast itype = some least)
    (h1 : least ≤ pp.length) (hp : pp.Pairwise (· < ·)) : ∀ (k i : Nat), i + k ≤ pp.length →
    codeInterp spl itype pp ff k i = .ok ((List.range k).map fun m => codeMode spl itype pp ff (i + m))
  | 0, i, _ => rfl
  | k + 1, i, h => by
    unfold codeInterp
    rw [hl]
    simp only
    rw [if_neg (by omega), if_neg (by omega), if_neg (not_not.2 (show Magnetic.increasing pp from hp)),
      codeInterp_ok spl itype pp ff hl h1 hp k (i + 1) (by omega), List.range_succ_eq_map, List.map_cons, List.map_map]
    simp only [CodeRes.bind, Nat.add_zero, Function.comp_def, Nat.succ_eq_add_one, Nat.add_comm, Nat.add_left_comm]

/-- Linear interpolation between neighbouring points. -/
theorem linear1_between {xs ys : List ℝ} (h2 : 2 ≤ xs.length) (hinc : xs.Pairwise (· < ·)) (hl : ys.length = xs.length) {j : Nat}
    {x x0 x1 y0 y1 : ℝ} (hx0 : xs[j]? = some x0) (hx1 : xs[j + 1]? = some x1) (hy0 : ys[j]? = some y0) (hy1 : ys[j + 1]? = some y1)
    (hlo : x0 ≤ x) (hhi : x ≤ x1) : linear1 xs ys x = (1 - (x - x0) / (x1 - x0)) * y0 + (x - x0) / (x1 - x0) * y1 := by
  have hlt : x0 < x1 := increasing_lt hinc hx0 hx1 (by omega)
  have hne : x1 - x0 ≠ 0 := (sub_pos.2 hlt).ne'
  unfold linear1
  rcases cell_unique h2 hinc hx0 hx1 hlo hhi with e | ⟨e, rfl⟩
  · simp only [e, hx0, hx1, hy0, hy1]
    ring
  · have hc := cellOf_spec xs x h2
    rw [e] at hc
    obtain ⟨a, b, ha, hb, -, -⟩ := hc
    have hb' := (List.getElem?_eq_some_iff.1 hb).1
    obtain ⟨w, hw⟩ : ∃ w, ys[j + 1 + 1]? = some w := ⟨_, List.getElem?_eq_getElem (by omega)⟩
    simp only [e, hx1, hb, hy1, hw]
    rw [div_self hne]
    ring

/-! ### loading and evaluating -/

/-- The conditions under which the interpolation is made. -/
structure CodeGood (d : CodeData) (itype : Int) : Prop where
  least : ∃ n, codeLeast itype = some n ∧ n ≤ d.np
  modes : d.nleg ≤ d.np
  increasing : ∀ j, j + 1 < d.np → d.p j < d.p (j + 1)

theorem momenta_increasing {d : CodeData} (h : ∀ j, j + 1 < d.np → d.p j < d.p (j + 1)) : d.momenta.Pairwise (· < ·) := by
  have key : ∀ i k, i + (k + 1) < d.np → d.p i < d.p (i + (k + 1)) := by
    intro i k
    induction k with
    | zero => intro hlt; exact h i hlt
    | succ k ih =>
      intro hlt
      exact lt_trans (ih (by omega)) (h (i + (k + 1)) hlt)
  rw [List.pairwise_iff_getElem]
  intro i j hi hj hij
  rw [momenta_length] at hi hj
  obtain ⟨k, rfl⟩ : ∃ k, j = i + (k + 1) := ⟨j - i - 1, by omega⟩
  simpa [CodeData.momenta] using key i k hj

theorem legSum_codeSum (xi : ℝ) (v : Nat → ℝ) (n : Nat) :
    legSum ((List.range n).map v) xi = ∑ k ∈ Finset.range n, v k * legP (-xi) k := by
  unfold legSum
  rw [List.length_map, List.length_range]
  refine Finset.sum_congr rfl fun k hk => ?_
  rw [Finset.mem_range] at hk
  rw [C61_parity, List.getD_eq_getElem?_getD, List.getElem?_map, List.getElem?_range hk]
  simp only [Option.map_some, Option.getD_some]
  ring

/-- What is loaded. -/
theorem codeLoad_good {me : ℝ} (hme : 0 < me) (spl : Int → List ℝ → List ℝ → ℝ → ℝ) (garbage : Nat → List ℝ) {F : CodeFile} {d : CodeData}
    (hF : CodeFileOf F d) (hs : CodeSizes d) (hT : 0 < d.Tref) {time : Int} {t : Nat} (ht : IsTime d.nt time t) {itype : Int}
    (hg : CodeGood d itype) :
    ∃ ff : List ℝ, ff.length = d.np * d.nleg ∧ (∀ k j, k < d.nleg → j < d.np → ff[k * d.np + j]? = some (d.mode me t k j)) ∧
      codeLoad me spl garbage F time itype = .ok (Code.new (d.momenta.headD 0) (d.momenta.getLastD 0)
        ((List.range d.nleg).map fun m => codeMode spl itype d.momenta ff m) (garbage d.nleg)) := by
  obtain ⟨ff, h1, h2, h3⟩ := codeLoad_read hme spl garbage hF hs hT ht itype
  obtain ⟨n, hn, hle⟩ := hg.least
  refine ⟨ff, h1, h2, ?_⟩
  rw [h3, codeInterp_ok spl itype d.momenta ff hn (by rw [momenta_length]; exact hle) (momenta_increasing hg.increasing) d.nleg 0
    (by rw [momenta_length]; have := hg.modes; omega)]
  simp only [CodeRes.bind, Nat.zero_add]

theorem codeMode_values {me : ℝ} {spl : Int → List ℝ → List ℝ → ℝ → ℝ} {d : CodeData} {t : Nat} {ff : List ℝ}
    (h1 : ff.length = d.np * d.nleg) (h2 : ∀ k j, k < d.nleg → j < d.np → ff[k * d.np + j]? = some (d.mode me t k j)) {k : Nat} (hk : k < d.nleg) :
    ((ff.drop (k * d.momenta.length)).take d.momenta.length).length = d.np ∧
    ∀ j, j < d.np → ((ff.drop (k * d.momenta.length)).take d.momenta.length)[j]? = some (d.mode me t k j) := by
  rw [momenta_length]
  constructor
  · rw [List.length_take, List.length_drop, h1]
    have : k * d.np + d.np ≤ d.np * d.nleg := by
      calc k * d.np + d.np = (k + 1) * d.np := by ring
        _ ≤ d.nleg * d.np := Nat.mul_le_mul_right _ hk
        _ = d.np * d.nleg := Nat.mul_comm _ _
    omega
  · intro j hj
    rw [List.getElem?_take_of_lt hj, List.getElem?_drop, h2 k j hk hj]

/-- A loaded object gives, after any history of evaluations, zero outside of the momenta and inside the positive part of the sum. -/
theorem codeNew_value {d : CodeData} (h2 : 2 ≤ d.nleg) (hnp : 2 ≤ d.np) (hinc : ∀ j, j + 1 < d.np → d.p j < d.p (j + 1))
    (modes : Nat → ℝ → ℝ) (g : List ℝ) (hgl : g.length = d.nleg) (ops : List (CodeOp ℝ)) (hops : ∀ o ∈ ops, o.isEval = true) :
    ∃ c, runCode (Code.new (d.momenta.headD 0) (d.momenta.getLastD 0) ((List.range d.nleg).map modes) g) ops = some c ∧ ∀ p xi,
      (d.p 0 ≤ p → p ≤ d.p (d.np - 1) → ∃ c', c.eval p xi = some (max 0 (∑ k ∈ Finset.range d.nleg, modes k p * legP (-xi) k), c')) ∧
      (p < d.p 0 ∨ d.p (d.np - 1) < p → ∃ c', c.eval p xi = some (0, c')) := by
  have hh : d.momenta.headD 0 = d.p 0 := by
    rw [List.headD_eq_head?_getD, List.head?_eq_getElem?, momenta_get d (by omega)]; rfl
  have hl : d.momenta.getLastD 0 = d.p (d.np - 1) := by
    rw [List.getLastD_eq_getLast?, List.getLast?_eq_getElem?, momenta_length, momenta_get d (by omega)]; rfl
  have hlt : d.p 0 < d.p (d.np - 1) :=
    increasing_lt (momenta_increasing hinc) (momenta_get d (by omega)) (momenta_get d (j := d.np - 1) (by omega)) (by omega)
  rw [hh, hl]
  obtain ⟨c, e, h, hv, hm, h0, hN⟩ := run_evals (Code.new (d.p 0) (d.p (d.np - 1)) ((List.range d.nleg).map modes) g)
    ⟨by simp [Code.new, hgl], by simp [Code.new, h2]⟩ (fun y hy => by cases hy) ops hops
  refine ⟨c, e, fun p xi => ?_⟩
  obtain ⟨c', e', -⟩ := code_eval_spec c h p xi (Or.inl hv)
  rw [e']
  unfold codeValue
  rw [hm, h0, hN]
  simp only [Code.new, min_eq_left hlt.le, max_eq_right hlt.le]
  refine ⟨fun h1 h2 => ⟨c', ?_⟩, fun h1 => ⟨c', ?_⟩⟩
  · rw [if_neg (by rintro (h | h) <;> linarith), List.map_map]
    have := legSum_codeSum xi (fun k => modes k p) d.nleg
    rw [← this]
    rfl
  · rw [if_pos h1]

/-- **C120** A file with at least two modes, no more of them than momenta, increasing momenta and a positive temperature is loaded
with linear interpolation; at every pitch and every momentum between two stored ones the distribution is, after any history of
evaluations, the positive part of the weighted sums of the Legendre series of the stored values, and it is zero outside. -/
theorem C120_linear_partial {me : ℝ} (hme : 0 < me) (spl : Int → List ℝ → List ℝ → ℝ → ℝ) (garbage : Nat → List ℝ)
    (hgl : ∀ n, (garbage n).length = n) {F : CodeFile} {d : CodeData} (hF : CodeFileOf F d) (hs : CodeSizes d) (hT : 0 < d.Tref)
    {time : Int} {t : Nat} (ht : IsTime d.nt time t) (hg : CodeGood d 0) (h2 : 2 ≤ d.nleg) :
    ∃ c, codeLoad me spl garbage F time 0 = .ok c ∧
      ∀ ops : List (CodeOp ℝ), (∀ o ∈ ops, o.isEval = true) → ∃ c1, runCode c ops = some c1 ∧ ∀ p xi,
        (∀ j, j + 1 < d.np → d.p j ≤ p → p ≤ d.p (j + 1) → ∃ c2, c1.eval p xi = some (max 0
          ((1 - (p - d.p j) / (d.p (j + 1) - d.p j)) * d.sum me t j xi + (p - d.p j) / (d.p (j + 1) - d.p j) * d.sum me t (j + 1) xi), c2)) ∧
        (p < d.p 0 ∨ d.p (d.np - 1) < p → ∃ c2, c1.eval p xi = some (0, c2)) := by
  obtain ⟨ff, h1, hv, hload⟩ := codeLoad_good hme spl garbage hF hs hT ht hg
  have hnp : 2 ≤ d.np := le_trans h2 hg.modes
  refine ⟨_, hload, fun ops hops => ?_⟩
  obtain ⟨c1, e1, hc⟩ := codeNew_value h2 hnp hg.increasing (fun m => codeMode spl 0 d.momenta ff m) (garbage d.nleg) (hgl _) ops hops
  refine ⟨c1, e1, fun p xi => ⟨fun j hj hlo hhi => ?_, fun hout => (hc p xi).2 hout⟩⟩
  have hinc := momenta_increasing hg.increasing
  have mono : ∀ a b, a ≤ b → b < d.np → d.p a ≤ d.p b := by
    intro a b hab hb
    rcases Nat.lt_or_ge a b with hlt | hge
    · exact (increasing_lt hinc (momenta_get d (by omega)) (momenta_get d hb) hlt).le
    · rw [show a = b by omega]
  have hr : (∑ k ∈ Finset.range d.nleg, codeMode spl 0 d.momenta ff k p * legP (-xi) k) =
      (1 - (p - d.p j) / (d.p (j + 1) - d.p j)) * d.sum me t j xi + (p - d.p j) / (d.p (j + 1) - d.p j) * d.sum me t (j + 1) xi := by
    unfold CodeData.sum
    rw [Finset.mul_sum, Finset.mul_sum, ← Finset.sum_add_distrib]
    refine Finset.sum_congr rfl fun k hk => ?_
    rw [Finset.mem_range] at hk
    obtain ⟨hl, hget⟩ := codeMode_values (spl := spl) h1 hv hk
    have e : codeMode spl 0 d.momenta ff k p = linear1 d.momenta ((ff.drop (k * d.momenta.length)).take d.momenta.length) p := by
      unfold codeMode
      rw [if_pos rfl]
    rw [e, linear1_between (by rw [momenta_length]; exact hnp) hinc (by rw [hl, momenta_length]) (momenta_get d (by omega)) (momenta_get d hj)
      (hget j (by omega)) (hget (j + 1) hj) hlo hhi]
    ring
  rw [← hr]
  exact (hc p xi).1 (le_trans (mono 0 j (by omega) (by omega)) hlo) (le_trans hhi (mono (j + 1) (d.np - 1) (by omega) (by omega)))

/-- **C120** With any type of interpolation that takes the given values at the given points, the distribution has at the stored
momenta the positive part of the Legendre series of the stored values. -/
theorem C120_nodes_partial {me : ℝ} (hme : 0 < me) (spl : Int → List ℝ → List ℝ → ℝ → ℝ) (garbage : Nat → List ℝ)
    (hgl : ∀ n, (garbage n).length = n) {F : CodeFile} {d : CodeData} (hF : CodeFileOf F d) (hs : CodeSizes d) (hT : 0 < d.Tref)
    {time : Int} {t : Nat} (ht : IsTime d.nt time t) {itype : Int} (hg : CodeGood d itype) (h2 : 2 ≤ d.nleg)
    (hspl : ∀ (xs ys : List ℝ) (j : Nat) (x y : ℝ), 2 ≤ xs.length → xs.Pairwise (· < ·) → ys.length = xs.length → xs[j]? = some x → ys[j]? = some y →
      spl itype xs ys x = y) :
    ∃ c, codeLoad me spl garbage F time itype = .ok c ∧
      ∀ ops : List (CodeOp ℝ), (∀ o ∈ ops, o.isEval = true) → ∃ c1, runCode c ops = some c1 ∧ ∀ j xi, j < d.np →
        ∃ c2, c1.eval (d.p j) xi = some (max 0 (d.sum me t j xi), c2) := by
  obtain ⟨ff, h1, hv, hload⟩ := codeLoad_good hme spl garbage hF hs hT ht hg
  have hnp : 2 ≤ d.np := le_trans h2 hg.modes
  refine ⟨_, hload, fun ops hops => ?_⟩
  obtain ⟨c1, e1, hc⟩ := codeNew_value h2 hnp hg.increasing (fun m => codeMode spl itype d.momenta ff m) (garbage d.nleg) (hgl _) ops hops
  refine ⟨c1, e1, fun j xi hj => ?_⟩
  have hinc := momenta_increasing hg.increasing
  have mono : ∀ a b, a ≤ b → b < d.np → d.p a ≤ d.p b := by
    intro a b hab hb
    rcases Nat.lt_or_ge a b with hlt | hge
    · exact (increasing_lt hinc (momenta_get d (by omega)) (momenta_get d hb) hlt).le
    · rw [show a = b by omega]
  have hr : (∑ k ∈ Finset.range d.nleg, codeMode spl itype d.momenta ff k (d.p j) * legP (-xi) k) = d.sum me t j xi := by
    unfold CodeData.sum
    refine Finset.sum_congr rfl fun k hk => ?_
    rw [Finset.mem_range] at hk
    obtain ⟨hl, hget⟩ := codeMode_values (spl := spl) h1 hv hk
    congr 1
    by_cases h0 : itype = 0
    · have e : codeMode spl itype d.momenta ff k (d.p j) =
          linear1 d.momenta ((ff.drop (k * d.momenta.length)).take d.momenta.length) (d.p j) := by
        unfold codeMode
        rw [if_pos h0]
      rw [e]
      rcases Nat.lt_or_ge (j + 1) d.np with hj' | hj'
      · rw [linear1_between (by rw [momenta_length]; exact hnp) hinc (by rw [hl, momenta_length]) (momenta_get d hj) (momenta_get d hj')
          (hget j hj) (hget (j + 1) hj') (le_refl _) (mono j (j + 1) (by omega) hj')]
        rw [sub_self, zero_div]
        ring
      · obtain ⟨i, rfl⟩ : ∃ i, j = i + 1 := ⟨j - 1, by omega⟩
        have hi := hg.increasing i hj
        rw [linear1_between (by rw [momenta_length]; exact hnp) hinc (by rw [hl, momenta_length]) (momenta_get d (by omega)) (momenta_get d hj)
          (hget i (by omega)) (hget (i + 1) hj) hi.le (le_refl _)]
        rw [div_self (sub_pos.2 hi).ne']
        ring
    · unfold codeMode
      rw [if_neg h0]
      exact hspl _ _ j _ _ (by rw [momenta_length]; exact hnp) hinc (by rw [hl, momenta_length]) (momenta_get d hj) (hget j hj)
  rw [← hr]
  exact (hc (d.p j) xi).1 (mono 0 j (by omega) hj) (mono j (d.np - 1) (by omega) (by omega))

/-! ### what else happens -/

/-- **C120** The outcomes for files with positive temperature: an unknown type of interpolation is reported, too few momenta and
momenta that do not increase end the program, and more modes than momenta overrun an array. -/
theorem C120_outcomes {me : ℝ} (hme : 0 < me) (spl : Int → List ℝ → List ℝ → ℝ → ℝ) (garbage : Nat → List ℝ) {F : CodeFile}
    {d : CodeData} (hF : CodeFileOf F d) (hs : CodeSizes d) (hT : 0 < d.Tref) {time : Int} {t : Nat} (ht : IsTime d.nt time t) (itype : Int) :
    (codeLeast itype = none → codeLoad me spl garbage F time itype = .throws) ∧
    (∀ least, codeLeast itype = some least → d.np < least → codeLoad me spl garbage F time itype = .aborts) ∧
    (∀ least, codeLeast itype = some least → least ≤ d.np → (¬ ∀ j, j + 1 < d.np → d.p j < d.p (j + 1)) →
      codeLoad me spl garbage F time itype = .aborts) ∧
    (∀ least, codeLeast itype = some least → least ≤ d.np → (∀ j, j + 1 < d.np → d.p j < d.p (j + 1)) → d.np < d.nleg →
      codeLoad me spl garbage F time itype = .ub) ∧
    ((∃ c, codeLoad me spl garbage F time itype = .ok c) ↔ CodeGood d itype) := by
  have key : ∃ ff : List ℝ, ff.length = d.np * d.nleg ∧ codeLoad me spl garbage F time itype =
      (codeInterp spl itype d.momenta ff d.nleg 0).bind fun ms =>
        .ok (Code.new (d.momenta.headD 0) (d.momenta.getLastD 0) ms (garbage d.nleg)) := by
    obtain ⟨ff, h1, _, h3⟩ := codeLoad_read hme spl garbage hF hs hT ht itype
    exact ⟨ff, h1, h3⟩
  obtain ⟨ff, h1, h3⟩ := key
  have hone := hs.nleg
  obtain ⟨n', hn'⟩ : ∃ n', d.nleg = n' + 1 := ⟨d.nleg - 1, by omega⟩
  have a1 : codeLeast itype = none → codeLoad me spl garbage F time itype = .throws := by
    intro h
    rw [h3, hn']
    unfold codeInterp
    rw [h]
    rfl
  have a2 : ∀ least, codeLeast itype = some least → d.np < least → codeLoad me spl garbage F time itype = .aborts := by
    intro least h hlt
    rw [h3, hn']
    unfold codeInterp
    rw [h]
    simp only
    rw [if_pos (by rw [momenta_length]; exact hlt)]
    rfl
  have a3 : ∀ least, codeLeast itype = some least → least ≤ d.np → (¬ ∀ j, j + 1 < d.np → d.p j < d.p (j + 1)) →
      codeLoad me spl garbage F time itype = .aborts := by
    intro least h hle hinc
    have hp : ¬ Magnetic.increasing d.momenta := fun hp => hinc fun j hj =>
      increasing_lt hp (momenta_get d (by omega)) (momenta_get d hj) (by omega)
    have := hs.np
    rw [h3, hn']
    unfold codeInterp
    rw [h]
    simp only
    rw [if_neg (by rw [momenta_length]; omega), if_neg (by rw [momenta_length]; omega), if_pos hp]
    rfl
  have a4 : ∀ least, codeLeast itype = some least → least ≤ d.np → (∀ j, j + 1 < d.np → d.p j < d.p (j + 1)) → d.np < d.nleg →
      codeLoad me spl garbage F time itype = .ub := by
    intro least h hle hinc hlt
    rw [h3]
    have hp : Magnetic.increasing d.momenta := momenta_increasing hinc
    have loop : ∀ (k i : Nat), d.np < i + k → i ≤ d.np → codeInterp spl itype d.momenta ff k i = .ub := by
      intro k
      induction k with
      | zero => intro i h1 h2; omega
      | succ k ih =>
        intro i h1 h2
        unfold codeInterp
        rw [h]
        simp only
        rw [if_neg (by rw [momenta_length]; omega)]
        by_cases hi : d.np ≤ i
        · rw [if_pos (by rw [momenta_length]; exact hi)]
        · rw [if_neg (by rw [momenta_length]; exact hi), if_neg (not_not.2 hp), ih (i + 1) (by omega) (by omega)]
          rfl
    rw [loop d.nleg 0 (by omega) (by omega)]
    rfl
  refine ⟨a1, a2, a3, a4, ⟨?_, ?_⟩⟩
  · rintro ⟨c, hc⟩
    cases hl : codeLeast itype with
    | none => rw [a1 hl] at hc; cases hc
    | some least =>
      rcases Nat.lt_or_ge d.np least with hlt | hle
      · rw [a2 least hl hlt] at hc; cases hc
      · by_cases hinc : ∀ j, j + 1 < d.np → d.p j < d.p (j + 1)
        · rcases Nat.lt_or_ge d.np d.nleg with hm | hm
          · rw [a4 least hl hle hinc hm] at hc; cases hc
          · exact ⟨⟨least, hl, hle⟩, hm, hinc⟩
        · rw [a3 least hl hle hinc] at hc; cases hc
  · intro hg
    obtain ⟨ff', _, _, h⟩ := codeLoad_good hme spl garbage hF hs hT ht hg
    exact ⟨_, h⟩

/-- **C120** The types of interpolation and the least numbers of momenta. -/
theorem C120_types {me : ℝ} (hme : 0 < me) (spl : Int → List ℝ → List ℝ → ℝ → ℝ) (garbage : Nat → List ℝ) {F : CodeFile}
    {d : CodeData} (hF : CodeFileOf F d) (hs : CodeSizes d) (hT : 0 < d.Tref) {time : Int} {t : Nat} (ht : IsTime d.nt time t) (itype : Int) :
    (itype < 0 ∨ 6 < itype → codeLoad me spl garbage F time itype = .throws) ∧
    (itype = 0 ∧ d.np < 2 ∨ (itype = 1 ∨ itype = 2 ∨ itype = 3 ∨ itype = 6) ∧ d.np < 3 ∨ (itype = 4 ∨ itype = 5) ∧ d.np < 5 →
      codeLoad me spl garbage F time itype = .aborts) ∧
    ((∃ c, codeLoad me spl garbage F time itype = .ok c) ↔
      (itype = 0 ∧ 2 ≤ d.np ∨ (itype = 1 ∨ itype = 2 ∨ itype = 3 ∨ itype = 6) ∧ 3 ≤ d.np ∨ (itype = 4 ∨ itype = 5) ∧ 5 ≤ d.np) ∧
      d.nleg ≤ d.np ∧ ∀ j, j + 1 < d.np → d.p j < d.p (j + 1)) := by
  obtain ⟨h1, h2, -, -, h5⟩ := C120_outcomes hme spl garbage hF hs hT ht itype
  refine ⟨fun h => h1 ?_, fun h => ?_, h5.trans ?_⟩
  · unfold codeLeast
    repeat rw [if_neg (by omega)]
  · rcases h with ⟨h, hn⟩ | ⟨h, hn⟩ | ⟨h, hn⟩
    · exact h2 2 (by subst h; rfl) hn
    · exact h2 3 (by rcases h with h | h | h | h <;> subst h <;> rfl) hn
    · exact h2 5 (by rcases h with h | h <;> subst h <;> rfl) hn
  · constructor
    · rintro ⟨⟨n, h, hn⟩, h3, h4⟩
      refine ⟨?_, h3, h4⟩
      unfold codeLeast at h
      split_ifs at h <;> injection h with h <;> omega
    · rintro ⟨h, h3, h4⟩
      refine ⟨?_, h3, h4⟩
      rcases h with ⟨h, hn⟩ | ⟨h, hn⟩ | ⟨h, hn⟩
      · exact ⟨2, by subst h; rfl, hn⟩
      · exact ⟨3, by rcases h with h | h | h | h <;> subst h <;> rfl, hn⟩
      · exact ⟨5, by rcases h with h | h <;> subst h <;> rfl, hn⟩

/-- **C120** As stated it is refuted: decreasing momenta, which the functions for the largest and the smallest momentum provide for,
end the program. -/
theorem C120_refuted_order {me : ℝ} (hme : 0 < me) (spl : Int → List ℝ → List ℝ → ℝ → ℝ) (garbage : Nat → List ℝ) {F : CodeFile}
    {d : CodeData} (hF : CodeFileOf F d) (hs : CodeSizes d) (hT : 0 < d.Tref) {time : Int} {t : Nat} (ht : IsTime d.nt time t)
    (h2 : 2 ≤ d.np) (hdec : d.p 1 < d.p 0) (itype : Int) (hi : codeLeast itype ≠ none) : codeLoad me spl garbage F time itype = .aborts := by
  obtain ⟨_, b, c, _, _⟩ := C120_outcomes hme spl garbage hF hs hT ht itype
  cases hl : codeLeast itype with
  | none => exact absurd hl hi
  | some least =>
    rcases Nat.lt_or_ge d.np least with hlt | hle
    · exact b least hl hlt
    · exact c least hl hle fun h => absurd (h 0 (by omega)) (not_lt.2 hdec.le)

theorem code_eval_few (c : Code ℝ) {p : ℝ} (xi : ℝ) (hx : c.xileg = none) (hlen : c.leg.length = c.modes.length) (h : c.modes.length < 2)
    (hp : c.p0 = p) : c.eval p xi = none := by
  have hr : ¬ (p > c.pmax ∨ p < c.pmin) := by
    rw [pmax_eq, pmin_eq, hp]
    rintro (h | h)
    · exact absurd (le_max_left p c.pN) (not_le.2 h)
    · exact absurd (min_le_left p c.pN) (not_le.2 h)
  unfold Code.eval
  rw [if_neg hr, hx, if_neg (by simp), C61_refuted_few c.leg xi _ hlen h]
  rfl

/-- **C120** As stated it is refuted: a single mode is loaded, and evaluating it writes outside of the array of Legendre polynomials. -/
theorem C120_refuted_single {me : ℝ} (hme : 0 < me) (spl : Int → List ℝ → List ℝ → ℝ → ℝ) (garbage : Nat → List ℝ)
    (hgl : ∀ n, (garbage n).length = n) {F : CodeFile} {d : CodeData} (hF : CodeFileOf F d) (hs : CodeSizes d) (hT : 0 < d.Tref)
    {time : Int} {t : Nat} (ht : IsTime d.nt time t) {itype : Int} (hg : CodeGood d itype) (h1 : d.nleg = 1) (xi : ℝ) :
    ∃ c, codeLoad me spl garbage F time itype = .ok c ∧ c.eval (d.p 0) xi = none := by
  obtain ⟨ff, _, _, hload⟩ := codeLoad_good hme spl garbage hF hs hT ht hg
  refine ⟨_, hload, ?_⟩
  have hnp := hs.np
  have hh : d.momenta.headD 0 = d.p 0 := by
    rw [List.headD_eq_head?_getD, List.head?_eq_getElem?, momenta_get d (by omega)]; rfl
  exact code_eval_few _ xi rfl (by simp [Code.new, hgl]) (by simp [Code.new, h1]) (by simp only [Code.new]; exact hh)

/-- **C120** As stated it is refuted: with a temperature that is not positive the file is loaded, but the values are no numbers. -/
theorem C120_refuted_temperature {me : ℝ} (hme : 0 < me) (spl : Int → List ℝ → List ℝ → ℝ → ℝ) (garbage : Nat → List ℝ) {F : CodeFile}
    {d : CodeData} (hF : CodeFileOf F d) (hs : CodeSizes d) (hT : d.Tref ≤ 0) {time : Int} {t : Nat} (ht : IsTime d.nt time t) (itype : Int) :
    codeLoad me spl garbage F time itype = .nonfinite := by
  obtain ⟨row, h1, h2, h3⟩ := (codeLoad_upto me spl garbage hF hs (by have := ht.1; omega) time itype).2 t ht
  rw [h3, if_pos]
  have := Real.pi_pos
  exact mul_nonpos_of_nonneg_of_nonpos (by positivity) hT

/-- **C120** A time index outside of the stored steps is reported. -/
theorem C120_time {me : ℝ} (spl : Int → List ℝ → List ℝ → ℝ → ℝ) (garbage : Nat → List ℝ) {F : CodeFile} {d : CodeData}
    (hF : CodeFileOf F d) (hs : CodeSizes d) (hnt : 1 ≤ d.nt) (time : Int) (h : ∀ t, ¬ IsTime d.nt time t) (itype : Int) :
    codeLoad me spl garbage F time itype = .throws := by
  apply (codeLoad_upto me spl garbage hF hs hnt time itype).1
  rcases lt_or_ge time 0 with h0 | h0
  · by_cases h1 : time < -d.nt
    · exact (C62_code d.nt).2.2.2 time h1
    · exact absurd ⟨by omega, Or.inr (by omega)⟩ (h (d.nt + time).toNat)
  · by_cases h1 : time ≥ d.nt
    · exact (C62_code d.nt).2.2.1 time h1
    · exact absurd ⟨by omega, Or.inl (by omega)⟩ (h time.toNat)

/-! ### only such files are loaded -/

theorem CodeRes.bind_ok {α β : Type} {r : CodeRes α} {k : α → CodeRes β} {b : β} (h : r.bind k = .ok b) : ∃ a, r = .ok a ∧ k a = .ok b := by
  cases r with
  | ok a => exact ⟨a, rfl, h⟩
  | ub => cases h
  | aborts => cases h
  | nonfinite => cases h
  | large => cases h
  | throws => cases h

/-- The matrices of the file are complete. -/
structure CodeFull (F : CodeFile) : Prop where
  full : ∀ m, F.y = some m ∨ F.delta = some m ∨ F.nref = some m ∨ F.Tref = some m ∨ F.Nxi = some m ∨ F.f = some m → m.data.length = m.rows * m.cols

theorem codeGet_ok {o : Option (Mat ℝ)} {m : Mat ℝ} (h : codeGet o = .ok m) : o = some m ∧ m.rows ≠ 0 := by
  cases o with
  | none => cases h
  | some a =>
    unfold codeGet at h
    by_cases h0 : a.rows = 0
    · simp only [h0, if_true] at h; cases h
    · simp only [h0, if_false] at h
      cases h
      exact ⟨rfl, h0⟩

theorem codeNumber_ok {o : Option (Mat ℝ)} {v : ℝ} (h : codeNumber o = .ok v) (hf : ∀ m, o = some m → m.data.length = m.rows * m.cols) :
    o = some ⟨1, 1, [v]⟩ := by
  unfold codeNumber at h
  obtain ⟨m, h1, h'⟩ := CodeRes.bind_ok h
  obtain ⟨rfl, _⟩ := codeGet_ok h1
  clear h
  have h := h'
  have hl := hf m rfl
  obtain ⟨r, c, l⟩ := m
  simp only at h hl
  by_cases hc : r ≠ 1 ∨ c ≠ 1
  · rw [if_pos hc] at h; cases h
  · rw [if_neg hc] at h
    push Not at hc
    obtain ⟨rfl, rfl⟩ := hc
    obtain ⟨x, rfl⟩ := List.length_eq_one_iff.1 hl
    simp only [List.getElem?_cons_zero] at h
    cases h
    rfl

theorem realToInt_ok {x : ℝ} {n : Int} (h : realToInt x = some n) : -2147483648 ≤ n ∧ n < 2147483648 ∧ (if 0 ≤ x then ⌊x⌋ else ⌈x⌉) = n := by
  unfold realToInt at h
  simp only at h
  generalize (if 0 ≤ x then ⌊x⌋ else ⌈x⌉) = u at h
  split_ifs at h with hc
  cases h
  exact ⟨hc.1, by omega, rfl⟩

/-- **C120** Only files with the documented contents are loaded, of which a time step is selected; but the number of modes need not be
whole. -/
theorem C120_only (me : ℝ) (spl : Int → List ℝ → List ℝ → ℝ → ℝ) (garbage : Nat → List ℝ) (F : CodeFile) (hfull : CodeFull F)
    (time itype : Int) (c : Code ℝ)
    (h : codeLoad me spl garbage F time itype = .ok c) :
    ∃ d x t, F.Nxi = some ⟨1, 1, [x]⟩ ∧ (d.nleg : ℝ) ≤ x ⊔ 0 ∧ x < d.nleg + 1 ∧
      CodeFileOf { F with Nxi := some ⟨1, 1, [(d.nleg : ℝ)]⟩ } d ∧ IsTime d.nt time t := by
  unfold codeLoad at h
  obtain ⟨y, hy, h⟩ := CodeRes.bind_ok h
  obtain ⟨hy, hy0⟩ := codeGet_ok hy
  cases hv : y.vecLen with
  | none => rw [hv] at h; cases h
  | some np =>
  rw [hv] at h
  simp only at h
  by_cases hnp : 2147483648 ≤ np
  · rw [if_pos hnp] at h; cases h
  rw [if_neg hnp] at h
  obtain ⟨delta, hdelta, h⟩ := CodeRes.bind_ok h
  obtain ⟨nref, hnref, h⟩ := CodeRes.bind_ok h
  obtain ⟨Tref, hTref, h⟩ := CodeRes.bind_ok h
  obtain ⟨Nxi, hNxi, h⟩ := CodeRes.bind_ok h
  cases hint : realToInt Nxi with
  | none => rw [hint] at h; cases h
  | some nleg =>
  rw [hint] at h
  simp only at h
  by_cases hlen : y.data.length < np
  · rw [if_pos hlen] at h; cases h
  rw [if_neg hlen] at h
  obtain ⟨f, hf, h⟩ := CodeRes.bind_ok h
  obtain ⟨hf, hf0⟩ := codeGet_ok hf
  by_cases hcols : (f.cols : Int) ≠ ((np : Int) * nleg) % 18446744073709551616
  · rw [if_pos hcols] at h; cases h
  rw [if_neg hcols, ] at h
  by_cases hrows : 2147483648 ≤ f.rows
  · rw [if_pos hrows] at h; cases h
  rw [if_neg hrows] at h
  cases htime : codeTime f.rows time with
  | none => rw [htime] at h; cases h
  | some t =>
  rw [htime] at h
  simp only at h
  by_cases h1 : (np : Int) * nleg < -2147483648 ∨ 2147483648 ≤ (np : Int) * nleg
  · rw [if_pos h1] at h; cases h
  rw [if_neg h1] at h
  by_cases h2 : (np : Int) * nleg < 0
  · rw [if_pos h2] at h; cases h
  rw [if_neg h2] at h
  split_ifs at h with h3 h4
  obtain ⟨ms, hms, h⟩ := CodeRes.bind_ok h
  have hyl := hfull.full y (by simp [hy])
  have hfl := hfull.full f (by simp [hf])
  have hmat : y = ⟨1, np, y.data⟩ ∨ y = ⟨np, 1, y.data⟩ := by
    unfold Mat.vecLen at hv
    obtain ⟨r, k, l⟩ := y
    simp only at hv
    by_cases hr : r = 1
    · rw [if_pos hr] at hv
      cases hv
      left; rw [hr]
    · rw [if_neg hr] at hv
      by_cases hk : k = 1
      · rw [if_pos hk] at hv
        cases hv
        right; rw [hk]
      · rw [if_neg hk] at hv; cases hv
  have hyn : y.data.length = np := by
    rcases hmat with e | e <;> · rw [e] at hyl; simpa using hyl
  have hnleg : 0 ≤ nleg := by
    by_contra hneg
    have hnp0 : np = 0 := by
      by_contra hn
      exact h2 (mul_neg_of_pos_of_neg (by omega) (by omega))
    have hb := (realToInt_ok hint).1
    have hm : ∃ k, (nleg % 4294967296).toNat = k + 1 := ⟨(nleg % 4294967296).toNat - 1, by omega⟩
    obtain ⟨k, hk⟩ := hm
    rw [hk] at hms
    unfold codeInterp at hms
    cases hl : codeLeast itype with
    | none => rw [hl] at hms; cases hms
    | some least =>
      rw [hl] at hms
      simp only at hms
      have hle : 2 ≤ least := by
        unfold codeLeast at hl
        split_ifs at hl <;> · cases hl; omega
      rw [if_pos (by simp; omega)] at hms
      cases hms
  obtain ⟨nl, rfl⟩ := Int.eq_ofNat_of_zero_le hnleg
  have hcols' : f.cols = np * nl := by
    rw [not_not] at hcols
    have e : ((np : Int) * (nl : Int)) % 18446744073709551616 = (np : Int) * nl := Int.emod_eq_of_lt (by omega) (by omega)
    rw [e] at hcols
    exact_mod_cast hcols
  have hx : (nl : ℝ) ≤ Nxi ⊔ 0 ∧ Nxi < nl + 1 := by
    have hint := (realToInt_ok hint).2.2
    by_cases hp : 0 ≤ Nxi
    · rw [if_pos hp, Int.floor_eq_iff] at hint
      exact ⟨le_max_of_le_left (by exact_mod_cast hint.1), by exact_mod_cast hint.2⟩
    · rw [if_neg hp, Int.ceil_eq_iff] at hint
      push Not at hp
      have hn : nl = 0 := by
        by_contra hn
        have : (1 : ℝ) ≤ nl := by exact_mod_cast Nat.one_le_iff_ne_zero.2 hn
        have := hint.1
        push_cast at this
        linarith
      rw [hn]
      push_cast
      exact ⟨le_max_right _ _, by linarith⟩
  have hNxi' := codeNumber_ok hNxi fun m hm => hfull.full m (by simp [hm])
  have ht0 : 0 ≤ t ∧ t < f.rows := by
    unfold codeTime at htime
    simp only at htime
    generalize (if time < 0 then (f.rows : Int) + time else time) = u at htime
    split_ifs at htime with hc
    cases htime
    omega
  refine ⟨⟨np, nl, f.rows, fun j => y.data.getD j 0, delta, nref, Tref, fun t k j => f.data.getD (t * (np * nl) + (k * np + j)) 0⟩, Nxi, t.toNat, hNxi',
    hx.1, hx.2, ⟨?_, ?_, ?_, ?_, rfl, ?_⟩, ⟨(show t.toNat < f.rows by omega), ?_⟩⟩
  · have hd : (List.range np).map (fun j => y.data.getD j 0) = y.data := by
      apply List.ext_getElem
      · simp [hyn]
      · intro i h1 h2
        simp [List.getD_eq_getElem?_getD, h2]
    simp only [hd, hy]
    rcases hmat with e | e
    · left; rw [← e]
    · right; rw [← e]
  · exact codeNumber_ok hdelta fun m hm => hfull.full m (Or.inr (Or.inl hm))
  · cases hn : F.nref with
    | none =>
      rw [hn] at hnref
      cases hnref
      exact Or.inl ⟨rfl, rfl⟩
    | some m =>
      right
      rw [hn] at hnref
      exact codeNumber_ok hnref fun m' hm => hfull.full m' (by rw [hn]; simp [hm])
  · cases hn : F.Tref with
    | none =>
      rw [hn] at hTref
      cases hTref
      exact Or.inl ⟨rfl, rfl⟩
    | some m =>
      right
      rw [hn] at hTref
      exact codeNumber_ok hTref fun m' hm => hfull.full m' (by rw [hn]; simp [hm])
  · refine ⟨f.data, ?_, ?_, ?_⟩
    · simp only [hf, ← hcols']
    · simp only; rw [hfl, hcols']
    · intro t k j ht hk hj
      simp only at ht hk hj ⊢
      have : t * (np * nl) + (k * np + j) < f.data.length := by
        rw [hfl, hcols']
        calc t * (np * nl) + (k * np + j) < t * (np * nl) + (k * np + np) := by omega
          _ = t * (np * nl) + (k + 1) * np := by ring
          _ ≤ t * (np * nl) + nl * np := by have := Nat.mul_le_mul_right np (show k + 1 ≤ nl from hk); omega
          _ = (t + 1) * (np * nl) := by ring
          _ ≤ f.rows * (np * nl) := Nat.mul_le_mul_right _ ht
      rw [List.getD_eq_getElem?_getD, List.getElem?_eq_getElem this]
      rfl
  · unfold codeTime at htime
    simp only at htime
    split_ifs at htime with ha hb hb
    · cases htime; right; simp only; omega
    · cases htime; left; omega

/-! ### examples -/

/-- Two modes at two momenta, one time step. -/
def sampleCode (delta T : ℝ) : CodeData := ⟨2, 2, 1, fun j => j + 1, delta, 1, T, fun _ k j => k + j⟩

def sampleCodeFile (delta T : ℝ) : CodeFile :=
  ⟨some ⟨1, 2, [1, 2]⟩, some ⟨1, 1, [delta]⟩, none, some ⟨1, 1, [T]⟩, some ⟨1, 1, [2]⟩, some ⟨1, 4, [0, 1, 1, 2]⟩⟩

example (delta T : ℝ) : CodeFileOf (sampleCodeFile delta T) (sampleCode delta T) ∧ CodeSizes (sampleCode delta T) ∧ IsTime 1 (-1) 0 := by
  refine ⟨⟨?_, rfl, Or.inl ⟨rfl, rfl⟩, Or.inr rfl, ?_, ?_⟩, ⟨by norm_num [sampleCode], by norm_num [sampleCode], by norm_num [sampleCode], by norm_num [sampleCode]⟩, by decide, by decide⟩
  · left
    norm_num [sampleCodeFile, sampleCode, List.range_succ]
  · simp [sampleCodeFile, sampleCode]
  · refine ⟨[0, 1, 1, 2], rfl, rfl, ?_⟩
    intro t k j ht hk hj
    simp only [sampleCode] at ht hk hj ⊢
    obtain rfl : t = 0 := by omega
    interval_cases k <;> interval_cases j <;> norm_num

/-- With a positive unit of momentum it is loaded with linear interpolation, with a negative one the momenta decrease. -/
example : CodeGood (sampleCode 1 1) 0 ∧ (sampleCode (-1) 1).p 1 < (sampleCode (-1) 1).p 0 := by
  refine ⟨⟨⟨2, rfl, le_refl _⟩, le_refl _, ?_⟩, ?_⟩
  · intro j hj
    simp only [sampleCode, CodeData.p] at hj ⊢
    obtain rfl : j = 0 := by omega
    norm_num
  · norm_num [sampleCode, CodeData.p]

end

end Softlib
