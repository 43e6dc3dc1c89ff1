/-
C60: CODE distributions and their evaluation history; C58: their clone; C62: the time index of
CODE; C70: the arrays of the interpolation; C71: conversion to a table.
-/
import Verif.Dist.LegendreProps
import Mathlib.Algebra.BigOperators.Intervals
import Mathlib.Algebra.BigOperators.Ring.Finset
import Mathlib.Algebra.Order.Ring.Rat

namespace Softlib

open Dist

variable {K : Type} [Field K] [LinearOrder K]

/-- The Legendre sum with alternating sign, `∑ (-1)^i f_i(p) P_i(xi)`. -/
def legSum (fs : List K) (xi : K) : K := ∑ i ∈ Finset.range fs.length, fs.getD i 0 * legP xi i * (-1) ^ i

theorem altSum_eq : ∀ (fs : List K) (g : Nat → K) (s : K),
    altSum s fs ((List.range fs.length).map g) = ∑ i ∈ Finset.range fs.length, fs.getD i 0 * g i * (s * (-1) ^ i)
  | [], g, s => by simp [altSum]
  | f :: fs, g, s => by
    have h := altSum_eq fs (fun i => g (i + 1)) (-s)
    rw [List.length_cons, List.range_succ_eq_map, List.map_cons, List.map_map]
    simp only [altSum]
    have h2 : (List.range fs.length).map (g ∘ Nat.succ) = (List.range fs.length).map fun i => g (i + 1) := rfl
    rw [h2, h, Finset.sum_range_succ']
    simp only [List.getD_cons_succ, List.getD_cons_zero, pow_zero, mul_one]
    rw [add_comm]
    congr 1
    refine Finset.sum_congr rfl fun i _ => ?_
    rw [pow_succ]
    ring

theorem altSum_legSum (fs : List K) (xi : K) : altSum 1 fs ((List.range fs.length).map (legP xi)) = legSum fs xi := by
  rw [altSum_eq]
  simp only [legSum, one_mul]

/-- The value a CODE distribution should have: zero outside the momentum range and where the sum is
not positive. -/
def codeValue (c : Code K) (p xi : K) : K :=
  if p < min c.p0 c.pN ∨ max c.p0 c.pN < p then 0 else max 0 (legSum (c.modes.map fun f => f p) xi)

theorem pmax_eq (c : Code K) : c.pmax = max c.p0 c.pN := by
  simp only [Code.pmax]
  split
  · rename_i h; rw [max_eq_right (le_of_lt h)]
  · rename_i h; rw [max_eq_left (not_lt.mp h)]

theorem pmin_eq (c : Code K) : c.pmin = min c.p0 c.pN := by
  simp only [Code.pmin]
  split
  · rename_i h; rw [min_eq_left (le_of_lt h)]
  · rename_i h; rw [min_eq_right (not_lt.mp h)]

/-- Well formed: the array of Legendre values has its allocated size, at least two. -/
structure CodeOk (c : Code K) : Prop where
  len : c.leg.length = c.modes.length
  two : 2 ≤ c.modes.length

/-- The cache is valid: the array holds the values at the remembered pitch. -/
def CacheValid (c : Code K) : Prop := ∀ y, c.xileg = some y → c.leg = (List.range c.modes.length).map (legP y)

variable [CharZero K]

/-- **C60** An evaluation at another pitch than the remembered one, or with a valid cache, gives the
value of the distribution, and leaves a valid cache if there was one or if it was refreshed. -/
theorem code_eval_spec (c : Code K) (h : CodeOk c) (p xi : K) (hx : CacheValid c ∨ c.xileg ≠ some xi) :
    ∃ c', c.eval p xi = some (codeValue c p xi, c') ∧ CodeOk c' ∧ c'.modes = c.modes ∧ c'.p0 = c.p0 ∧ c'.pN = c.pN ∧
      (CacheValid c → CacheValid c') := by
  simp only [Code.eval, pmax_eq, pmin_eq]
  by_cases hp : p > max c.p0 c.pN ∨ p < min c.p0 c.pN
  · rw [if_pos hp]
    refine ⟨c, ?_, h, rfl, rfl, rfl, id⟩
    simp only [codeValue]
    rw [if_pos (by rcases hp with hp | hp; exacts [Or.inr hp, Or.inl hp])]
  · rw [if_neg hp]
    have hp' : ¬ (p < min c.p0 c.pN ∨ max c.p0 c.pN < p) := fun h => hp (by rcases h with h | h; exacts [Or.inr h, Or.inl h])
    have hmax : ∀ s : K, (if s ≤ 0 then 0 else s) = max 0 s := by
      intro s
      split
      · rename_i h; rw [max_eq_left h]
      · rename_i h; rw [max_eq_right (le_of_lt (not_le.mp h))]
    by_cases hc : c.xileg = some xi
    · rw [if_pos hc]
      have hv : CacheValid c := by
        rcases hx with hx | hx
        · exact hx
        · exact absurd hc hx
      refine ⟨c, ?_, h, rfl, rfl, rfl, id⟩
      simp only [hmax, codeValue, if_neg hp']
      rw [hv xi hc]
      have hl : c.modes.length = (c.modes.map fun f => f p).length := by simp
      rw [hl, altSum_legSum]
    · rw [if_neg hc, computeLegendre_eq c.leg xi _ h.len h.two]
      simp only [Option.map_some, hmax]
      refine ⟨{ c with leg := (List.range c.modes.length).map (legP xi), xileg := some xi }, ?_, ⟨?_, h.two⟩, rfl, rfl,
        rfl, ?_⟩
      · simp only [codeValue, if_neg hp']
        congr 2
        have hl : c.modes.length = (c.modes.map fun f => f p).length := by simp
        rw [hl, altSum_legSum]
      · simp
      · intro _ y hy
        injection hy with hy
        subst hy
        rfl

/-- A call on the object. -/
inductive CodeOp (K : Type) where
  | eval (p xi : K)
  | convert (nodes : Nat → List K) (np : Nat) (logarithmic : Bool) (txi : List K)

/-- The state after a history of calls. -/
def runCode : Code K → List (CodeOp K) → Option (Code K)
  | c, [] => some c
  | c, .eval p xi :: rest =>
    match c.eval p xi with
    | none => none
    | some (_, c') => runCode c' rest
  | c, .convert nodes np lg txi :: rest =>
    match c.tabulate nodes np lg txi with
    | none => none
    | some (_, c') => runCode c' rest

def CodeOp.isEval : CodeOp K → Bool
  | .eval _ _ => true
  | .convert _ _ _ _ => false

theorem run_evals (c : Code K) (h : CodeOk c) (hv : CacheValid c) : ∀ (ops : List (CodeOp K)),
    (∀ o ∈ ops, o.isEval = true) →
    ∃ c', runCode c ops = some c' ∧ CodeOk c' ∧ CacheValid c' ∧ c'.modes = c.modes ∧ c'.p0 = c.p0 ∧ c'.pN = c.pN := by
  intro ops
  induction ops generalizing c with
  | nil => intro _; exact ⟨c, rfl, h, hv, rfl, rfl, rfl⟩
  | cons o ops ih =>
    intro ho
    cases o with
    | eval p xi =>
      obtain ⟨c1, e, h1, hm, h0, hN, hv1⟩ := code_eval_spec c h p xi (Or.inl hv)
      obtain ⟨c2, e2, h2, hv2, hm2, h02, hN2⟩ := ih c1 h1 (hv1 hv) (fun o hmem => ho o (by simp [hmem]))
      exact ⟨c2, by simp only [runCode, e, e2], h2, hv2, hm2.trans hm, h02.trans h0, hN2.trans hN⟩
    | convert nodes np lg txi =>
      have := ho (.convert nodes np lg txi) (by simp)
      simp [CodeOp.isEval] at this

/-- **C60** After any number of evaluations of a new object with at least two modes, the value at
`(p, xi)` is the Legendre sum cut off at zero: it does not depend on the evaluations before. -/
theorem C60_history_partial (p0 pN : K) (modes : List (K → K)) (garbage : List K) (hg : garbage.length = modes.length)
    (h2 : 2 ≤ modes.length) (ops : List (CodeOp K)) (hops : ∀ o ∈ ops, o.isEval = true) (p xi : K) :
    ∃ c c', runCode (Code.new p0 pN modes garbage) ops = some c ∧
      c.eval p xi = some (codeValue (Code.new p0 pN modes garbage) p xi, c') := by
  obtain ⟨c, e, h, hv, hm, h0, hN⟩ := run_evals (Code.new p0 pN modes garbage) ⟨hg, h2⟩ (fun y hy => by cases hy) ops hops
  obtain ⟨c', e', -⟩ := code_eval_spec c h p xi (Or.inl hv)
  refine ⟨c, c', e, ?_⟩
  rw [e']
  simp only [codeValue, hm, h0, hN]

theorem tabulate_ok (nodes : Nat → List K) (np : Nat) (lg : Bool) : ∀ (txi : List K) (c : Code K), CodeOk c →
    ∃ rows c', c.tabulate nodes np lg txi = some (rows, c') ∧ CodeOk c' ∧ c'.modes = c.modes ∧ c'.p0 = c.p0 ∧
      c'.pN = c.pN ∧ c'.xileg = c.xileg ∧
      (∀ y, txi.getLast? = some y → c'.leg = (List.range c.modes.length).map (legP y)) ∧ (txi = [] → c' = c) := by
  intro txi
  induction txi with
  | nil => intro c h; exact ⟨[], c, rfl, h, rfl, rfl, rfl, rfl, fun y hy => by simp at hy, fun _ => rfl⟩
  | cons x txi ih =>
    intro c h
    have hc1 : CodeOk { c with leg := (List.range c.modes.length).map (legP x) } := ⟨by simp, h.two⟩
    obtain ⟨rows, c', e, h', hm, h0, hN, hxl, hlast, hnil⟩ := ih _ hc1
    have e1 : Code.tabulate nodes np lg c (x :: txi) = some (((List.range np).map fun j =>
        if lg = true ∧ altSum 1 (nodes j) ((List.range c.modes.length).map (legP x)) < 0 then 0
          else altSum 1 (nodes j) ((List.range c.modes.length).map (legP x))) ++ rows, c') := by
      simp only [Code.tabulate, computeLegendre_eq c.leg x _ h.len h.two, e]
    refine ⟨_, c', e1, h', hm, h0, hN, hxl, ?_, by simp⟩
    intro y hy
    cases txi with
    | nil =>
      have : x = y := by simpa using hy
      rw [hnil rfl, this]
    | cons a l =>
      exact hlast y (by simpa using hy)

/-- **C60** Every history of evaluations and conversions runs without a fault, and the next value is
right unless its pitch is the one of the last evaluation. -/
theorem C60_other_pitch_partial (p0 pN : K) (modes : List (K → K)) (garbage : List K)
    (hg : garbage.length = modes.length) (h2 : 2 ≤ modes.length) (ops : List (CodeOp K)) :
    ∃ c, runCode (Code.new p0 pN modes garbage) ops = some c ∧
      ∀ p xi, c.xileg ≠ some xi → ∃ c', c.eval p xi = some (codeValue (Code.new p0 pN modes garbage) p xi, c') := by
  have main : ∀ (ops : List (CodeOp K)) (c : Code K), CodeOk c →
      ∃ c', runCode c ops = some c' ∧ CodeOk c' ∧ c'.modes = c.modes ∧ c'.p0 = c.p0 ∧ c'.pN = c.pN := by
    intro ops
    induction ops with
    | nil => intro c h; exact ⟨c, rfl, h, rfl, rfl, rfl⟩
    | cons o ops ih =>
      intro c h
      cases o with
      | eval p xi =>
        have hstep : ∃ v c1, c.eval p xi = some (v, c1) ∧ CodeOk c1 ∧ c1.modes = c.modes ∧ c1.p0 = c.p0 ∧ c1.pN = c.pN := by
          by_cases hx : c.xileg = some xi
          · simp only [Code.eval]
            split
            · exact ⟨_, c, rfl, h, rfl, rfl, rfl⟩
            · exact ⟨_, c, rfl, h, rfl, rfl, rfl⟩
          · obtain ⟨c1, e, h1, hm, h0, hN, -⟩ := code_eval_spec c h p xi (Or.inr hx)
            exact ⟨_, c1, e, h1, hm, h0, hN⟩
        obtain ⟨v, c1, e, h1, hm, h0, hN⟩ := hstep
        obtain ⟨c2, e2, h2, hm2, h02, hN2⟩ := ih c1 h1
        exact ⟨c2, by simp only [runCode, e, e2], h2, hm2.trans hm, h02.trans h0, hN2.trans hN⟩
      | convert nodes np lg txi =>
        obtain ⟨rows, c1, e, h1, hm, h0, hN, -⟩ := tabulate_ok nodes np lg txi c h
        obtain ⟨c2, e2, h2, hm2, h02, hN2⟩ := ih c1 h1
        exact ⟨c2, by simp only [runCode, e, e2], h2, hm2.trans hm, h02.trans h0, hN2.trans hN⟩
  obtain ⟨c, e, h, hm, h0, hN⟩ := main ops (Code.new p0 pN modes garbage) ⟨hg, h2⟩
  refine ⟨c, e, fun p xi hx => ?_⟩
  obtain ⟨c', e', -⟩ := code_eval_spec c h p xi (Or.inr hx)
  refine ⟨c', ?_⟩
  rw [e']
  simp only [codeValue, hm, h0, hN]

/-- **C60** (refuted) After an evaluation at `xi` and a conversion whose last pitch is `y`, the value
at `xi` is the one that belongs to `y`, for every momentum in the range. -/
theorem C60_refuted_conversion (p0 pN : K) (modes : List (K → K)) (garbage : List K) (hg : garbage.length = modes.length)
    (h2 : 2 ≤ modes.length) (nodes : Nat → List K) (np : Nat) (lg : Bool) (txi : List K) (y : K)
    (hy : txi.getLast? = some y) (p xi : K) (hp1 : min p0 pN ≤ p) (hp2 : p ≤ max p0 pN) :
    ∃ c c', runCode (Code.new p0 pN modes garbage) [.eval p xi, .convert nodes np lg txi] = some c ∧
      c.eval p xi = some (codeValue (Code.new p0 pN modes garbage) p y, c') := by
  have hp : ¬ (p > max p0 pN ∨ p < min p0 pN) := by
    rintro (h | h)
    · exact absurd hp2 (not_le.mpr h)
    · exact absurd hp1 (not_le.mpr h)
  have hp' : ¬ (p < min p0 pN ∨ max p0 pN < p) := fun h => hp (by rcases h with h | h; exacts [Or.inr h, Or.inl h])
  have hmax : ∀ s : K, (if s ≤ 0 then 0 else s) = max 0 s := by
    intro s
    split
    · rename_i h; rw [max_eq_left h]
    · rename_i h; rw [max_eq_right (le_of_lt (not_le.mp h))]
  have e1 : (Code.new p0 pN modes garbage).eval p xi =
      some (codeValue (Code.new p0 pN modes garbage) p xi,
        ⟨p0, pN, modes, (List.range modes.length).map (legP xi), some xi⟩) := by
    simp only [Code.eval, pmax_eq, pmin_eq, Code.new, if_neg hp]
    simp only [reduceCtorEq, if_false, computeLegendre_eq garbage xi _ hg h2]
    simp only [Option.map_some, hmax, codeValue, if_neg hp']
    have hl : modes.length = (modes.map fun f => f p).length := by simp
    rw [hl, altSum_legSum]
  obtain ⟨rows, c', e, h', hm, h0, hN, hxl, hlast, -⟩ := tabulate_ok nodes np lg txi
    (⟨p0, pN, modes, (List.range modes.length).map (legP xi), some xi⟩ : Code K) ⟨by simp, h2⟩
  refine ⟨c', c', by simp only [runCode, e1, e], ?_⟩
  simp only [Code.eval, pmax_eq, pmin_eq, h0, hN, if_neg hp, hxl, if_true, hm, hlast y hy, hmax, codeValue, Code.new,
    if_neg hp']
  have hl : modes.length = (modes.map fun f => f p).length := by simp
  rw [hl, altSum_legSum]
  congr 2
  exact (if_neg hp').symm

/-- The two values differ: modes 1 and 1, evaluated at 0, converted up to -1. -/
example : codeValue (Code.new (0 : ℚ) 1 [fun _ => 1, fun _ => 1] [0, 0]) 0 0 = 1 ∧
    codeValue (Code.new (0 : ℚ) 1 [fun _ => 1, fun _ => 1] [0, 0]) 0 (-1) = 2 := by
  constructor <;> norm_num [codeValue, Code.new, legSum, Finset.sum_range_succ, legP]

/-- **C58** The clone of a CODE distribution evaluates as a new object with the same modes; so after
any evaluations of the original (but not conversions) original and clone agree everywhere. -/
theorem C58_code_partial (p0 pN : K) (modes : List (K → K)) (garbage garbage' : List K)
    (hg : garbage.length = modes.length) (hg' : garbage'.length = modes.length) (h2 : 2 ≤ modes.length)
    (ops : List (CodeOp K)) (hops : ∀ o ∈ ops, o.isEval = true) (p xi : K) :
    ∃ c, runCode (Code.new p0 pN modes garbage) ops = some c ∧
      ((c.clone garbage').eval p xi).map Prod.fst = (c.eval p xi).map Prod.fst := by
  obtain ⟨c, e, h, hv, hm, h0, hN⟩ := run_evals (Code.new p0 pN modes garbage) ⟨hg, h2⟩ (fun y hy => by cases hy) ops hops
  obtain ⟨c1, e1, -⟩ := code_eval_spec c h p xi (Or.inl hv)
  obtain ⟨c2, e2, -⟩ := code_eval_spec (c.clone garbage') ⟨by simpa [Code.clone, Code.new, hm] using hg', h.two⟩ p xi
    (Or.inl (fun y hy => by cases hy))
  refine ⟨c, e, ?_⟩
  rw [e1, e2]
  rfl

/-- **C60** The value of a CODE distribution in terms of the Legendre polynomials at `-xi`: the sign
of the pitch is reversed. -/
theorem C60_reversed_pitch (fs : List K) (xi : K) :
    legSum fs xi = ∑ i ∈ Finset.range fs.length, fs.getD i 0 * legP (-xi) i := by
  refine Finset.sum_congr rfl fun i _ => ?_
  rw [C61_parity]
  ring

/-! ### C62: CODE -/

omit [LinearOrder K] [CharZero K] [Field K] in
/-- **C62** The time index of CODE (the same code is in GO+CODE): `t` selects step `t`, `-t` the
`t`-th from the end, and anything else is rejected. -/
theorem C62_code (ntimes : Nat) :
    (∀ t : Nat, t < ntimes → codeTime ntimes t = some (t : Int)) ∧
    (∀ t : Nat, 1 ≤ t → t ≤ ntimes → codeTime ntimes (-t) = some ((ntimes - t : Nat) : Int)) ∧
    (∀ t : Int, t ≥ ntimes → codeTime ntimes t = none) ∧
    (∀ t : Int, t < -ntimes → codeTime ntimes t = none) := by
  refine ⟨fun t h => ?_, fun t h1 h2 => ?_, fun t h => ?_, fun t h => ?_⟩ <;> simp only [codeTime]
  · rw [if_neg (show ¬ ((t : Int) < 0) by omega), if_neg (by omega)]
  · rw [if_pos (show (-(t : Int)) < 0 by omega), if_neg (by omega)]
    congr 1
    omega
  · rw [if_neg (show ¬ (t < 0) by omega), if_pos (by omega)]
  · rw [if_pos (show t < 0 by omega), if_pos (by omega)]

example : codeTime 5 (-1) = some 4 ∧ codeTime 5 4 = some 4 ∧ codeTime 5 5 = none ∧ codeTime 5 (-6) = none := by
  decide

/-! ### C70 -/

omit [LinearOrder K] [CharZero K] [Field K] in
/-- **C70** The interpolation objects fit in their array exactly if there are at most as many modes
as momenta: with more modes than momenta the array of pointers is overrun. -/
theorem C70_interp_slots (np nleg : Nat) : interpSlots np nleg = true ↔ nleg ≤ np := by
  simp only [interpSlots, List.all_eq_true, List.mem_range, decide_eq_true_eq]
  constructor
  · intro h
    by_contra hlt
    exact absurd (h np (by omega)) (by omega)
  · intro h i hi
    omega

omit [LinearOrder K] [CharZero K] [Field K] in
theorem C70_refuted : interpSlots 10 11 = false := by decide

/-! ### C71 -/

/-- **C71** The table made by a conversion holds, for every pitch of the grid and every momentum node,
the Legendre sum of the nodal values, cut off at zero if it is to be logarithmic. -/
theorem C71_table (nodes : Nat → List K) (np : Nat) (lg : Bool) : ∀ (txi : List K) (c : Code K), CodeOk c →
    (∀ j, (nodes j).length = c.modes.length) →
    ∃ rows c', c.tabulate nodes np lg txi = some (rows, c') ∧ rows.length = txi.length * np ∧
      ∀ i j x, txi[i]? = some x → j < np →
        rows[i * np + j]? = some (if lg = true then max 0 (legSum (nodes j) x) else legSum (nodes j) x) := by
  intro txi
  induction txi with
  | nil => intro c _ _; exact ⟨[], c, rfl, by simp, fun i j x h => by simp at h⟩
  | cons a txi ih =>
    intro c h hn
    have hc1 : CodeOk { c with leg := (List.range c.modes.length).map (legP a) } := ⟨by simp, h.two⟩
    obtain ⟨rows, c', e, hlen, hrows⟩ := ih _ hc1 hn
    generalize hrow : ((List.range np).map fun j =>
        if lg = true ∧ altSum 1 (nodes j) ((List.range c.modes.length).map (legP a)) < 0 then 0
          else altSum 1 (nodes j) ((List.range c.modes.length).map (legP a))) = row
    have e1 : Code.tabulate nodes np lg c (a :: txi) = some (row ++ rows, c') := by
      simp only [Code.tabulate, computeLegendre_eq c.leg a _ h.len h.two, e, hrow]
    have hl : row.length = np := by rw [← hrow]; simp
    refine ⟨_, c', e1, by simp [hl, hlen, Nat.succ_mul, Nat.add_comm], ?_⟩
    intro i j x hx hj
    rcases i with _ | i
    · have : a = x := by simpa using hx
      subst this
      rw [Nat.zero_mul, Nat.zero_add, List.getElem?_append_left (by omega), ← hrow, List.getElem?_map,
        List.getElem?_range hj]
      simp only [Option.map_some]
      congr 1
      have hl2 : c.modes.length = (nodes j).length := (hn j).symm
      rw [hl2, altSum_legSum]
      cases lg with
      | false => simp
      | true =>
        simp only [true_and, if_true]
        split
        · rename_i h; rw [max_eq_left (le_of_lt h)]
        · rename_i h; rw [max_eq_right (not_lt.mp h)]
    · have h3 := hrows i j x (by simpa using hx) hj
      rw [List.getElem?_append_right (by rw [hl, Nat.succ_mul]; omega), hl]
      have : (i + 1) * np + j - np = i * np + j := by rw [Nat.succ_mul]; omega
      rw [this]
      exact h3

/-- **C71** At a node of the momentum grid, where the interpolation of every mode takes its nodal value,
the evaluation of the distribution is the entry of the logarithmic conversion. -/
theorem C71_agrees (nodes : Nat → List K) (np : Nat) (txi : List K) (c : Code K) (h : CodeOk c)
    (hn : ∀ j, (nodes j).length = c.modes.length) (i j : Nat) (x p : K) (hx : txi[i]? = some x) (hj : j < np)
    (hp1 : min c.p0 c.pN ≤ p) (hp2 : p ≤ max c.p0 c.pN) (hnode : (c.modes.map fun f => f p) = nodes j)
    (hv : CacheValid c) :
    ∃ rows c' c'', c.tabulate nodes np true txi = some (rows, c') ∧
      c.eval p x = some (rows.getD (i * np + j) 0, c'') := by
  obtain ⟨rows, c', e, hlen, hrows⟩ := C71_table nodes np true txi c h hn
  obtain ⟨c'', e2, -⟩ := code_eval_spec c h p x (Or.inl hv)
  refine ⟨rows, c', c'', e, ?_⟩
  rw [e2]
  have h3 := hrows i j x hx hj
  simp only [if_true] at h3
  rw [List.getD_eq_getElem?_getD, h3]
  simp only [Option.getD_some, codeValue]
  rw [if_neg, hnode]
  rintro (h | h)
  · exact absurd hp1 (not_le.mpr h)
  · exact absurd hp2 (not_le.mpr h)

end Softlib
