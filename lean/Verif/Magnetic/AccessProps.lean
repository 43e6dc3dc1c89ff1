/-
C122: numeric fields and tables evaluated many times, and by several threads at once.
-/
import Verif.Magnetic.AccessModel
import Verif.Magnetic.LukeProps
import Verif.Magnetic.GslProps
import Verif.Dist.LinearProps

namespace Softlib

open Magnetic

noncomputable section

/-! ### programs -/

theorem run_seq {α β : Type} (p : Access (LRes α)) (f : α → Access (LRes β)) (m : Scratch) {a : α} {m' : Scratch}
    (h : p.run m = (.ok a, m')) : (p.seq f).run m = (f a).run m' := by
  induction p generalizing m with
  | ret r =>
    simp only [Access.run, Prod.mk.injEq] at h
    obtain ⟨rfl, rfl⟩ := h
    rfl
  | getAcc i k ih => exact ih _ _ h
  | setAcc i n k ih => exact ih _ h
  | getBuf b i k ih => exact ih _ _ h
  | setBuf b i v k ih => exact ih _ h

theorem run_step {α : Type} (p : Access α) (m : Scratch) : (p.step m).1.run (p.step m).2 = p.run m := by
  cases p <;> rfl

theorem scratch_ext {m m' : Scratch} (h1 : m.acc = m'.acc) (h2 : m.buf = m'.buf) : m = m' := by
  cases m; cases m'; simp_all

/-- What storing does. -/
theorem run_storeFrom {α : Type} (b : Shown) (vs : List ℝ) (i : Nat) (k : Access α) (m : Scratch) :
    ∃ m', (storeFrom b i vs k).run m = k.run m' ∧ m'.acc = m.acc ∧ (∀ b' j, b' ≠ b → m'.buf b' j = m.buf b' j) ∧
      (∀ j, j < i → m'.buf b j = m.buf b j) ∧ ∀ j, j < vs.length → m'.buf b (i + j) = vs.getD j 0 := by
  induction vs generalizing i m with
  | nil => exact ⟨m, rfl, rfl, fun _ _ _ => rfl, fun _ _ => rfl, fun j hj => absurd hj (by simp)⟩
  | cons v vs ih =>
    obtain ⟨m', h1, h2, h3, h4, h5⟩ := ih (i + 1) (m.setBuf b i v)
    refine ⟨m', h1, h2, fun b' j hb => ?_, fun j hj => ?_, fun j hj => ?_⟩
    · rw [h3 b' j hb]; simp [Scratch.setBuf, hb]
    · rw [h4 j (by omega)]; simp only [Scratch.setBuf]; rw [if_neg (by omega)]
    · cases j with
      | zero => rw [Nat.add_zero, h4 i (by omega)]; simp [Scratch.setBuf]
      | succ j =>
        have := h5 j (by simpa using hj)
        rw [show i + (j + 1) = i + 1 + j by omega, this]
        simp

theorem run_fetchFrom {α : Type} (b : Shown) (vs : List ℝ) (i : Nat) (k : List ℝ → Access α) (m : Scratch)
    (h : ∀ j, j < vs.length → m.buf b (i + j) = vs.getD j 0) : (fetchFrom b i vs.length k).run m = (k vs).run m := by
  induction vs generalizing i k with
  | nil => rfl
  | cons v vs ih =>
    simp only [List.length_cons, fetchFrom, Access.run]
    have h0 := h 0 (by simp)
    simp only [Nat.add_zero, List.getD_cons_zero] at h0
    rw [h0]
    exact ih (i + 1) (fun l => k (v :: l)) fun j hj => by
      have := h (j + 1) (by simpa using hj)
      rw [show i + 1 + j = i + (j + 1) by omega, this]
      simp

theorem run_fetchN {α : Type} (b : Shown) {n : Nat} {vs : List ℝ} {m : Scratch} (h : ∀ j, j < n → m.buf b (0 + j) = vs.getD j 0)
    (hn : vs.length = n) (k : List ℝ → Access α) : (fetchFrom b 0 n k).run m = (k vs).run m := by
  subst hn
  exact run_fetchFrom b vs 0 k m h

/-- Number of accesses at most. -/
def AccessesAtMost {α : Type} : Nat → Access α → Prop
  | _, .ret _ => True
  | 0, .getAcc _ _ => False
  | 0, .setAcc _ _ _ => False
  | 0, .getBuf _ _ _ => False
  | 0, .setBuf _ _ _ _ => False
  | n + 1, .getAcc _ k => ∀ c, AccessesAtMost n (k c)
  | n + 1, .setAcc _ _ k => AccessesAtMost n k
  | n + 1, .getBuf _ _ k => ∀ v, AccessesAtMost n (k v)
  | n + 1, .setBuf _ _ _ k => AccessesAtMost n k

theorem atMost_ret {α : Type} (n : Nat) (a : α) : AccessesAtMost n (.ret a) := by cases n <;> trivial

theorem atMost_mono {α : Type} (p : Access α) {n n' : Nat} (h : AccessesAtMost n p) (hn : n ≤ n') : AccessesAtMost n' p := by
  induction p generalizing n n' with
  | ret a => exact atMost_ret _ _
  | getAcc i k ih =>
    cases n with
    | zero => exact h.elim
    | succ n => obtain ⟨t, rfl⟩ : ∃ t, n' = t + 1 := ⟨n' - 1, by omega⟩; exact fun c => ih c (h c) (by omega)
  | setAcc i v k ih =>
    cases n with
    | zero => exact h.elim
    | succ n => obtain ⟨t, rfl⟩ : ∃ t, n' = t + 1 := ⟨n' - 1, by omega⟩; exact ih (n := n) h (by omega)
  | getBuf b i k ih =>
    cases n with
    | zero => exact h.elim
    | succ n => obtain ⟨t, rfl⟩ : ∃ t, n' = t + 1 := ⟨n' - 1, by omega⟩; exact fun c => ih c (h c) (by omega)
  | setBuf b i v k ih =>
    cases n with
    | zero => exact h.elim
    | succ n => obtain ⟨t, rfl⟩ : ∃ t, n' = t + 1 := ⟨n' - 1, by omega⟩; exact ih (n := n) h (by omega)

theorem atMost_seq {α β : Type} (p : Access (LRes α)) (f : α → Access (LRes β)) {n n' : Nat} (h : AccessesAtMost n p)
    (hf : ∀ a, AccessesAtMost n' (f a)) : AccessesAtMost (n + n') (p.seq f) := by
  induction p generalizing n with
  | ret a =>
    cases a with
    | ok a => exact atMost_mono _ (hf a) (by omega)
    | _ => exact atMost_ret _ _
  | getAcc i k ih =>
    cases n with
    | zero => exact h.elim
    | succ n => rw [Nat.succ_add]; exact fun c => ih c (h c)
  | setAcc i v k ih =>
    cases n with
    | zero => exact h.elim
    | succ n => rw [Nat.succ_add]; exact ih (n := n) h
  | getBuf b i k ih =>
    cases n with
    | zero => exact h.elim
    | succ n => rw [Nat.succ_add]; exact fun c => ih c (h c)
  | setBuf b i v k ih =>
    cases n with
    | zero => exact h.elim
    | succ n => rw [Nat.succ_add]; exact ih (n := n) h

theorem atMost_store {α : Type} (b : Shown) (vs : List ℝ) (i : Nat) (k : Access α) {n : Nat} (h : AccessesAtMost n k) :
    AccessesAtMost (vs.length + n) (storeFrom b i vs k) := by
  induction vs generalizing i with
  | nil => rw [List.length_nil, Nat.zero_add]; exact h
  | cons v vs ih =>
    rw [List.length_cons, show vs.length + 1 + n = vs.length + n + 1 by omega]
    exact ih (i + 1)

theorem atMost_storeN {α : Type} (b : Shown) (vs : List ℝ) (i : Nat) (k : Access α) {n : Nat} (c : Nat) (hc : vs.length = c)
    (h : AccessesAtMost n k) : AccessesAtMost (c + n) (storeFrom b i vs k) := hc ▸ atMost_store b vs i k h

theorem atMost_fetch {α : Type} (b : Shown) (c i : Nat) (k : List ℝ → Access α) {n : Nat} (h : ∀ l, AccessesAtMost n (k l)) :
    AccessesAtMost (c + n) (fetchFrom b i c k) := by
  induction c generalizing i k with
  | zero => rw [Nat.zero_add]; exact h []
  | succ c ih =>
    rw [show c + 1 + n = c + n + 1 by omega]
    exact fun v => ih (i + 1) _ fun l => h _

theorem atMost_step {α : Type} (p : Access α) (m : Scratch) {n : Nat} (h : AccessesAtMost (n + 1) p) :
    AccessesAtMost n (p.step m).1 := by
  cases p with
  | ret a => exact atMost_ret _ _
  | getAcc i k => exact h _
  | setAcc i v k => exact h
  | getBuf b i k => exact h _
  | setBuf b i v k => exact h

/-! ### the search for the cell -/

/-- A grid that GSL accepts. -/
structure Ascending (xs : List ℝ) : Prop where
  two : 2 ≤ xs.length
  inc : xs.Pairwise (· < ·)

theorem cell_is {xs : List ℝ} (h : Ascending xs) {x u v : ℝ} {i : Nat} (hu : xs[i]? = some u) (hv : xs[i + 1]? = some v)
    (hl : i = 0 ∨ u ≤ x) (hr : i + 2 = xs.length ∨ x < v) : i = cellOf xs x := by
  obtain ⟨a, b, ha, hb, hl', hr'⟩ := cellOf_spec xs x h.two
  generalize cellOf xs x = n at *
  have ib := (List.getElem?_eq_some_iff.1 hv).1
  have nb := (List.getElem?_eq_some_iff.1 hb).1
  rcases Nat.lt_trichotomy i n with hin | hin | hin
  · have h1 : x < v := by rcases hr with hr | hr <;> [omega; exact hr]
    have h2 : a ≤ x := by rcases hl' with hl' | hl' <;> [omega; exact hl']
    rcases Nat.lt_or_ge (i + 1) n with h' | h'
    · have := increasing_lt h.inc hv ha h'
      linarith
    · obtain rfl : n = i + 1 := by omega
      rw [hv] at ha
      obtain rfl := Option.some.inj ha
      linarith
  · exact hin
  · have h1 : x < b := by rcases hr' with hr | hr <;> [omega; exact hr]
    have h2 : u ≤ x := by rcases hl with hl | hl <;> [omega; exact hl]
    rcases Nat.lt_or_ge (n + 1) i with h' | h'
    · have := increasing_lt h.inc hb hu h'
      linarith
    · obtain rfl : i = n + 1 := by omega
      rw [hb] at hu
      obtain rfl := Option.some.inj hu
      linarith

theorem bsearch_cell {xs : List ℝ} (h : Ascending xs) (x : ℝ) (lo hi : Nat) (hlh : lo < hi) (hhi : hi < xs.length)
    (hl : ∀ u, xs[lo]? = some u → lo = 0 ∨ u ≤ x) (hr : ∀ v, xs[hi]? = some v → hi + 1 = xs.length ∨ x < v) :
    bsearch xs x lo hi = .ok (cellOf xs x) := by
  induction hn : hi - lo using Nat.strong_induction_on generalizing lo hi with
  | _ n ih =>
    rw [bsearch]
    by_cases hc : lo + 1 < hi
    · rw [if_pos hc]
      have hm : (hi + lo) / 2 < xs.length := by omega
      rw [List.getElem?_eq_getElem hm]
      dsimp only
      by_cases hv : xs[(hi + lo) / 2] > x
      · rw [if_pos hv]
        refine ih ((hi + lo) / 2 - lo) (by omega) lo ((hi + lo) / 2) (by omega) (by omega) hl (fun v h' => ?_) rfl
        rw [List.getElem?_eq_getElem hm] at h'
        obtain rfl := Option.some.inj h'
        exact Or.inr hv
      · rw [if_neg hv]
        refine ih (hi - (hi + lo) / 2) (by omega) ((hi + lo) / 2) hi (by omega) hhi (fun u h' => ?_) hr rfl
        rw [List.getElem?_eq_getElem hm] at h'
        obtain rfl := Option.some.inj h'
        exact Or.inr (not_lt.1 hv)
    · rw [if_neg hc]
      obtain rfl : hi = lo + 1 := by omega
      have h1 : xs[lo]? = some (xs[lo]'(by omega)) := List.getElem?_eq_getElem _
      have h2 : xs[lo + 1]? = some (xs[lo + 1]'hhi) := List.getElem?_eq_getElem _
      rw [← cell_is h h1 h2 (hl _ h1) (by have := hr _ h2; rcases this with h | h <;> [left; right] <;> [omega; exact h])]

theorem cellOf_lt {xs : List ℝ} (h : Ascending xs) (x : ℝ) : cellOf xs x + 1 < xs.length := by
  obtain ⟨a, b, ha, hb, -, -⟩ := cellOf_spec xs x h.two
  exact (List.getElem?_eq_some_iff.1 hb).1

/-- The accelerator ends with the cell of the point, whatever it held before. -/
theorem run_update {xs : List ℝ} (h : Ascending xs) (a : Nat) (x : ℝ) (m : Scratch) (hm : m.acc a + 1 < xs.length) :
    (accelUpdate a xs x).run m = (.ok (), m.setAcc a (cellOf xs x)) := by
  unfold accelUpdate
  simp only [Access.run]
  generalize hc : m.acc a = c at *
  have h1 : xs[c]? = some (xs[c]'(by omega)) := List.getElem?_eq_getElem _
  have h2 : xs[c + 1]? = some (xs[c + 1]'hm) := List.getElem?_eq_getElem _
  generalize xs[c]'(by omega) = u at h1
  generalize xs[c + 1]'hm = v at h2
  rw [h1]
  dsimp only
  by_cases hx : x < u
  · rw [if_pos hx]
    have : bsearch xs x 0 c = .ok (cellOf xs x) := by
      rcases Nat.eq_zero_or_pos c with h0 | h0
      · subst h0
        rw [bsearch, if_neg (by omega), ← cell_is h h1 h2 (Or.inl rfl) (Or.inr (lt_trans hx (increasing_lt h.inc h1 h2 (by omega))))]
      · exact bsearch_cell h x 0 c h0 (by omega) (fun _ _ => Or.inl rfl) fun w hw => by
          rw [h1] at hw; obtain rfl := Option.some.inj hw; exact Or.inr hx
    simp only [accelSearch, this, Access.run]
  · rw [if_neg hx, h2]
    dsimp only
    by_cases hv : x ≥ v
    · rw [if_pos hv]
      have : bsearch xs x c (xs.length - 1) = .ok (cellOf xs x) :=
        bsearch_cell h x c (xs.length - 1) (by omega) (by omega) (fun w hw => by
          rw [h1] at hw; obtain rfl := Option.some.inj hw; exact Or.inr (not_lt.1 hx)) fun w _ => Or.inl (by omega)
      simp only [accelSearch, this, Access.run]
    · rw [if_neg hv]
      have : c = cellOf xs x := cell_is h h1 h2 (Or.inr (not_lt.1 hx)) (Or.inr (not_le.1 hv))
      simp only [Access.run, Prod.mk.injEq, true_and]
      refine scratch_ext (funext fun j => ?_) rfl
      simp only [Scratch.setAcc]
      split
      · next hj => rw [hj, hc, this]
      · rfl

theorem run_find {xs : List ℝ} (h : Ascending xs) (a : Nat) (x : ℝ) (m : Scratch) (hm : m.acc a + 1 < xs.length) :
    (accelFind a xs x).run m = (.ok (cellOf xs x), m.setAcc a (cellOf xs x)) := by
  unfold accelFind
  rw [run_seq _ _ _ (run_update h a x m hm)]
  simp [Access.run, Scratch.setAcc]

theorem atMost_update (a : Nat) (xs : List ℝ) (x : ℝ) : AccessesAtMost 2 (accelUpdate a xs x) := by
  intro c
  have hs : ∀ lo hi, AccessesAtMost 1 (accelSearch a xs x lo hi) := by
    intro lo hi
    unfold accelSearch
    split
    · exact atMost_ret 0 (LRes.ok ())
    · exact atMost_ret _ _
  dsimp only
  split
  · exact atMost_ret _ _
  · split_ifs
    · exact hs _ _
    · split
      · exact atMost_ret _ _
      · split_ifs
        · exact hs _ _
        · exact atMost_ret _ _

theorem atMost_find (a : Nat) (xs : List ℝ) (x : ℝ) : AccessesAtMost 3 (accelFind a xs x) :=
  atMost_seq _ _ (n := 2) (n' := 1) (atMost_update a xs x) fun _ _ => atMost_ret 0 _

/-! ### fields -/

/-- A field with splines: `gsl_spline2d_init` has accepted its grids. -/
structure FieldReady (f : CField) : Prop where
  r : Ascending f.R
  z : Ascending f.Z

/-- The accelerators hold cells of the grids. -/
structure FieldMem (f : CField) (m : Scratch) : Prop where
  r : m.acc 0 + 1 < f.R.length
  z : m.acc 1 + 1 < f.Z.length

theorem run_ask {f : CField} (h : FieldReady f) {m : Scratch} (hm : FieldMem f m) (s : Nat → Nat → ℝ → ℝ → ℝ) (r z : ℝ) :
    ∃ m', (f.ask s r z).run m = (f.grid.ask r z (s (cellOf f.R r) (cellOf f.Z z) r z), m') ∧ FieldMem f m' ∧ m'.buf = m.buf := by
  have hg : ∀ v : ℝ, f.grid.ask r z v =
      (if r < f.R.headD 0 ∨ r > f.R.getLastD 0 then .aborts else if z < f.Z.headD 0 ∨ z > f.Z.getLastD 0 then .aborts else .ok v) :=
    fun _ => rfl
  rw [hg]
  unfold CField.ask
  by_cases h1 : r < f.R.headD 0 ∨ r > f.R.getLastD 0
  · refine ⟨m, ?_, hm, rfl⟩
    simp only [if_pos h1]
    rfl
  by_cases h2 : z < f.Z.headD 0 ∨ z > f.Z.getLastD 0
  · refine ⟨m, ?_, hm, rfl⟩
    simp only [if_neg h1, if_pos h2]
    rfl
  simp only [if_neg h1, if_neg h2]
  have hm1 : (m.setAcc 0 (cellOf f.R r)).acc 1 + 1 < f.Z.length := hm.z
  refine ⟨(m.setAcc 0 (cellOf f.R r)).setAcc 1 (cellOf f.Z z), ?_, ⟨?_, ?_⟩, rfl⟩
  · rw [run_seq _ _ _ (run_find h.r 0 r m hm.r), run_seq _ _ _ (run_find h.z 1 z _ hm1)]
    rfl
  · simpa [Scratch.setAcc] using cellOf_lt h.r r
  · simpa [Scratch.setAcc] using cellOf_lt h.z z

theorem atMost_ask (f : CField) (s : Nat → Nat → ℝ → ℝ → ℝ) (r z : ℝ) : AccessesAtMost 6 (f.ask s r z) := by
  unfold CField.ask
  split_ifs
  · exact atMost_ret _ _
  · exact atMost_ret _ _
  · exact atMost_seq _ _ (n := 3) (n' := 3) (atMost_find _ _ _) fun _ =>
      atMost_seq _ _ (n := 3) (n' := 0) (atMost_find _ _ _) fun _ => atMost_ret _ _

theorem ends_ordered {xs : List ℝ} (h : Ascending xs) : xs.headD 0 ≤ xs.getLastD 0 := by
  obtain ⟨h2, hinc⟩ := h
  have h1 : xs.headD 0 = xs[0] := by
    cases xs with
    | nil => simp at h2
    | cons => rfl
  have h3 : xs.getLastD 0 = xs[xs.length - 1] := by
    rw [List.getLastD_eq_getLast?, List.getLast?_eq_getElem?, List.getElem?_eq_getElem (by omega)]; rfl
  rw [h1, h3]
  exact (List.pairwise_iff_getElem.1 hinc 0 (xs.length - 1) (by omega) (by omega) (by omega)).le

theorem clamp_in {lo hi : ℝ} (h : lo ≤ hi) (x : ℝ) : ¬ (clampTo lo hi x < lo ∨ clampTo lo hi x > hi) := by
  unfold clampTo
  split_ifs with h1 h2 <;> rintro (h3 | h3) <;> linarith

/-- An evaluation inside the grids. -/
theorem run_ask_in {f : CField} (h : FieldReady f) {m : Scratch} (hm : FieldMem f m) (s : Nat → Nat → ℝ → ℝ → ℝ) (x z : ℝ) :
    ∃ m', (f.ask s (clampTo (f.R.headD 0) (f.R.getLastD 0) x) (clampTo (f.Z.headD 0) (f.Z.getLastD 0) z)).run m =
      (.ok (s (cellOf f.R (clampTo (f.R.headD 0) (f.R.getLastD 0) x)) (cellOf f.Z (clampTo (f.Z.headD 0) (f.Z.getLastD 0) z))
        (clampTo (f.R.headD 0) (f.R.getLastD 0) x) (clampTo (f.Z.headD 0) (f.Z.getLastD 0) z)), m') ∧
      FieldMem f m' ∧ m'.buf = m.buf := by
  obtain ⟨m', h1, h2, h3⟩ := run_ask h hm s (clampTo (f.R.headD 0) (f.R.getLastD 0) x) (clampTo (f.Z.headD 0) (f.Z.getLastD 0) z)
  refine ⟨m', ?_, h2, h3⟩
  rw [h1]
  unfold NGrid.ask
  rw [if_neg (by exact clamp_in (ends_ordered h.r) x), if_neg (by exact clamp_in (ends_ordered h.z) z)]

/-- What an evaluation function of the field gives. -/
def askRight (g : NGrid) : Ask → LRes (List ℝ)
  | .vec x y z => (g.evalG x y z).bind fun b => .ok [b.1, b.2.1, b.2.2]
  | .deriv x y z => (g.evalDerivativesG x y z).bind fun d =>
      .ok [d.babs, d.B.1, d.B.2.1, d.B.2.2, d.gradB.1, d.gradB.2.1, d.gradB.2.2, d.curlB.1, d.curlB.2.1, d.curlB.2.2,
        d.J 0 0, d.J 0 1, d.J 0 2, d.J 1 0, d.J 1 1, d.J 1 2, d.J 2 0, d.J 2 1, d.J 2 2]
  | .flux x y z => (g.fluxG x y z).bind fun v => .ok [v]
  | .fluxDeriv x y z => (g.fluxDerivativesG x y z).bind fun v => .ok [v.1, v.2.1, v.2.2]

theorem field_mem_of {f : CField} {m m' : Scratch} (h : FieldMem f m) (e : m'.acc = m.acc) : FieldMem f m' :=
  ⟨by rw [e]; exact h.r, by rw [e]; exact h.z⟩

/-- The first part of `Eval`. -/
theorem run_storeVec {f : CField} (h : FieldReady f) {m : Scratch} (hm : FieldMem f m) (x y z : ℝ) :
    ∃ m', (f.storeVec x y z).run m = (.ok (), m') ∧ FieldMem f m' ∧
      askRight f.grid (.vec x y z) = .ok [m'.buf .vec 0, m'.buf .vec 1, m'.buf .vec 2] := by
  unfold CField.storeVec
  dsimp only
  obtain ⟨m1, e1, v1, b1⟩ := run_ask_in h hm f.br.val (hyp x y) z
  rw [run_seq _ _ _ e1]
  obtain ⟨m2, e2, v2, b2⟩ := run_ask_in h v1 f.bphi.val (hyp x y) z
  rw [run_seq _ _ _ e2]
  obtain ⟨m3, e3, v3, b3⟩ := run_ask_in h v2 f.bz.val (hyp x y) z
  rw [run_seq _ _ _ e3]
  obtain ⟨m4, e4, a4, o4, -, w4⟩ := run_storeFrom (α := LRes Unit) .vec _ 0 (.ret (.ok ())) m3
  rw [e4]
  refine ⟨m4, rfl, field_mem_of v3 a4, ?_⟩
  have w0 := w4 0 (by simp)
  have w1 := w4 1 (by simp)
  have w2 := w4 2 (by simp)
  rw [Nat.zero_add] at w0 w1 w2
  rw [w0, w1, w2]
  unfold askRight NGrid.evalG NGrid.ask
  dsimp only
  rw [if_neg (by exact clamp_in (ends_ordered h.r) _), if_neg (by exact clamp_in (ends_ordered h.z) z)]
  rfl

/-- `Eval`. -/
theorem run_vec {f : CField} (h : FieldReady f) {m : Scratch} (hm : FieldMem f m) (x y z : ℝ) :
    ∃ m', (f.askVec x y z).run m = (askRight f.grid (.vec x y z), m') ∧ FieldMem f m' := by
  unfold CField.askVec
  obtain ⟨m1, e1, v1, r1⟩ := run_storeVec h hm x y z
  rw [run_seq _ _ _ e1, r1]
  exact ⟨m1, rfl, v1⟩

/-- `EvalDerivatives`. -/
theorem run_deriv {f : CField} (h : FieldReady f) {m : Scratch} (hm : FieldMem f m) (x y z : ℝ) :
    ∃ m', (f.askDeriv x y z).run m = (askRight f.grid (.deriv x y z), m') ∧ FieldMem f m' := by
  have hR : askRight f.grid (.deriv x y z) =
      ((match f.grid.evalDerivatives x y z with | none => .nonfinite | some d => .ok d : LRes MagData)).bind fun d =>
      .ok [d.babs, d.B.1, d.B.2.1, d.B.2.2, d.gradB.1, d.gradB.2.1, d.gradB.2.2, d.curlB.1, d.curlB.2.1, d.curlB.2.2,
        d.J 0 0, d.J 0 1, d.J 0 2, d.J 1 0, d.J 1 1, d.J 1 2, d.J 2 0, d.J 2 1, d.J 2 2] := by
    unfold askRight NGrid.evalDerivativesG NGrid.ask
    dsimp only
    rw [if_neg (by exact clamp_in (ends_ordered h.r) _), if_neg (by exact clamp_in (ends_ordered h.z) z)]
    rfl
  rw [hR]
  clear hR
  unfold CField.askDeriv
  have hJ : ∃ m', (f.storeJac x y z).run m = (.ok (), m') ∧ FieldMem f m' ∧
      (∀ j, j < 9 → m'.buf .jac (0 + j) = [(f.grid.jacobian x y z).1 0 0, (f.grid.jacobian x y z).1 0 1, (f.grid.jacobian x y z).1 0 2,
        (f.grid.jacobian x y z).1 1 0, (f.grid.jacobian x y z).1 1 1, (f.grid.jacobian x y z).1 1 2,
        (f.grid.jacobian x y z).1 2 0, (f.grid.jacobian x y z).1 2 1, (f.grid.jacobian x y z).1 2 2].getD j 0) ∧
      (∀ j, j < 3 → m'.buf .vec (0 + j) = [(f.grid.jacobian x y z).2.1, (f.grid.jacobian x y z).2.2.1,
        (f.grid.jacobian x y z).2.2.2].getD j 0) := by
    unfold CField.storeJac
    dsimp only
    obtain ⟨m1, e1, v1, -⟩ := run_ask_in h hm f.br.dr (hyp x y) z
    rw [run_seq _ _ _ e1]
    obtain ⟨m2, e2, v2, -⟩ := run_ask_in h v1 f.br.dz (hyp x y) z
    rw [run_seq _ _ _ e2]
    obtain ⟨m3, e3, v3, -⟩ := run_ask_in h v2 f.bphi.dr (hyp x y) z
    rw [run_seq _ _ _ e3]
    obtain ⟨m4, e4, v4, -⟩ := run_ask_in h v3 f.bphi.dz (hyp x y) z
    rw [run_seq _ _ _ e4]
    obtain ⟨m5, e5, v5, -⟩ := run_ask_in h v4 f.bz.dr (hyp x y) z
    rw [run_seq _ _ _ e5]
    obtain ⟨m6, e6, v6, -⟩ := run_ask_in h v5 f.bz.dz (hyp x y) z
    rw [run_seq _ _ _ e6]
    obtain ⟨m7, e7, v7, -⟩ := run_ask_in h v6 f.br.val (hyp x y) z
    rw [run_seq _ _ _ e7]
    obtain ⟨m8, e8, v8, -⟩ := run_ask_in h v7 f.bphi.val (hyp x y) z
    rw [run_seq _ _ _ e8]
    obtain ⟨m9, e9, v9, -⟩ := run_ask_in h v8 f.bz.val (hyp x y) z
    rw [run_seq _ _ _ e9]
    obtain ⟨ma, ea, aa, -, -, wa⟩ := run_storeFrom (α := LRes Unit) .vec _ 0 _ m9
    rw [ea]
    obtain ⟨mb, eb, ab, ob, -, wb⟩ := run_storeFrom (α := LRes Unit) .jac _ 0 _ ma
    rw [eb]
    refine ⟨mb, rfl, field_mem_of v9 (ab.trans aa), ?_, ?_⟩
    · intro j hj
      rw [wb j hj]
      rfl
    · intro j hj
      rw [ob _ _ (by decide), wa j hj]
      rfl
  obtain ⟨m1, e1, v1, j1, w1⟩ := hJ
  rw [run_seq _ _ _ e1]
  have f1 := run_fetchN (α := LRes (List ℝ)) .jac j1 rfl
  have f2 := run_fetchN (α := LRes (List ℝ)) .vec w1 rfl
  rw [f1, f2]
  unfold NGrid.evalDerivatives
  generalize f.grid.jacobian x y z = JB at *
  obtain ⟨J, Bx, By, Bz⟩ := JB
  simp only [List.getD_cons_zero, List.getD_cons_succ, Nat.mul_zero, Nat.mul_one, Nat.zero_add, Nat.reduceAdd, Nat.reduceMul]
  cases babsOf Bx By Bz with
  | none => exact ⟨m1, rfl, v1⟩
  | some babs =>
    dsimp only [Option.map_some]
    obtain ⟨m2, e2, a2, o2, -, w2⟩ := run_storeFrom (α := LRes (List ℝ)) .data _ 0 _ m1
    rw [e2]
    have f3 := run_fetchN (α := LRes (List ℝ)) .data (n := 10) w2 rfl
    have j2 : ∀ j, j < 9 → m2.buf .jac (0 + j) = [J 0 0, J 0 1, J 0 2, J 1 0, J 1 1, J 1 2, J 2 0, J 2 1, J 2 2].getD j 0 :=
      fun j hj => by rw [o2 _ _ (by decide)]; exact j1 j hj
    have f4 := run_fetchN (α := LRes (List ℝ)) .jac j2 rfl
    rw [f3, f4]
    exact ⟨m2, rfl, field_mem_of v1 a2⟩

theorem seq_aborts {α β : Type} (p : Access (LRes α)) (k : α → Access (LRes β)) (m m' : Scratch) (h : p.run m = (.aborts, m')) :
    (p.seq k).run m = (.aborts, m') := by
  induction p generalizing m with
  | ret r =>
    simp only [Access.run, Prod.mk.injEq] at h
    obtain ⟨rfl, rfl⟩ := h
    rfl
  | getAcc i k ih => exact ih _ _ h
  | setAcc i n k ih => exact ih _ h
  | getBuf b i k ih => exact ih _ _ h
  | setBuf b i v k ih => exact ih _ h

theorem ask_cases (g : NGrid) (r z : ℝ) : (∀ {α : Type} (v : α), g.ask r z v = .aborts) ∨ ∀ {α : Type} (v : α), g.ask r z v = .ok v := by
  unfold NGrid.ask
  by_cases h1 : r < g.rmin ∨ r > g.rmax
  · left; intro α v; rw [if_pos h1]
  · by_cases h2 : z < g.zmin ∨ z > g.zmax
    · left; intro α v; rw [if_neg h1, if_pos h2]
    · right; intro α v; rw [if_neg h1, if_neg h2]

/-- `EvalFlux`. -/
theorem run_flux {f : CField} (h : FieldReady f) {m : Scratch} (hm : FieldMem f m) (x y z : ℝ) :
    ∃ m', (f.askFlux x y z).run m = (askRight f.grid (.flux x y z), m') ∧ FieldMem f m' := by
  unfold CField.askFlux askRight NGrid.fluxG NGrid.flux
  have hpsi : f.grid.psi = f.psi.map fun s => s.spl f.R f.Z := rfl
  rw [hpsi]
  cases f.psi with
  | none => exact ⟨m, rfl, hm⟩
  | some s =>
    dsimp only [Option.map_some, must, LRes.bind]
    obtain ⟨m1, e1, v1, -⟩ := run_ask h hm s.val (hyp x y) z
    rcases ask_cases f.grid (hyp x y) z with hc | hc
    · rw [hc] at e1
      rw [seq_aborts _ _ _ _ e1, hc]
      exact ⟨m1, rfl, v1⟩
    · rw [hc] at e1
      rw [run_seq _ _ _ e1, hc]
      exact ⟨m1, rfl, v1⟩

/-- `EvalFluxDerivatives`. -/
theorem run_fluxDeriv {f : CField} (h : FieldReady f) {m : Scratch} (hm : FieldMem f m) (x y z : ℝ) :
    ∃ m', (f.askFluxDeriv x y z).run m = (askRight f.grid (.fluxDeriv x y z), m') ∧ FieldMem f m' := by
  unfold CField.askFluxDeriv askRight NGrid.fluxDerivativesG NGrid.fluxDerivatives
  have hpsi : f.grid.psi = f.psi.map fun s => s.spl f.R f.Z := rfl
  rw [hpsi]
  cases f.psi with
  | none => exact ⟨m, rfl, hm⟩
  | some s =>
    dsimp only [Option.map_some, must, LRes.bind]
    obtain ⟨m1, e1, v1, -⟩ := run_ask h hm s.val (hyp x y) z
    rcases ask_cases f.grid (hyp x y) z with hc | hc
    · rw [hc] at e1
      rw [seq_aborts _ _ _ _ e1, hc]
      exact ⟨m1, rfl, v1⟩
    · rw [hc] at e1
      rw [run_seq _ _ _ e1, hc]
      dsimp only [Access.run]
      generalize hA : s.val (cellOf f.R (hyp x y)) (cellOf f.Z z) (hyp x y) z = A
      obtain ⟨m2, e2, v2, b2⟩ := run_ask h (m := m1.setBuf .flux 0 A) (field_mem_of v1 rfl) s.dr (hyp x y) z
      rw [hc] at e2
      rw [run_seq _ _ _ e2]
      dsimp only [Access.run]
      generalize hB : s.dr (cellOf f.R (hyp x y)) (cellOf f.Z z) (hyp x y) z = B
      obtain ⟨m3, e3, v3, b3⟩ := run_ask h (m := m2.setBuf .flux 1 B) (field_mem_of v2 rfl) s.dz (hyp x y) z
      rw [hc] at e3
      rw [run_seq _ _ _ e3]
      dsimp only [Access.run, fetchFrom, CellSpl.spl]
      rw [hA, hB]
      refine ⟨m3.setBuf .flux 2 (s.dz (cellOf f.R (hyp x y)) (cellOf f.Z z) (hyp x y) z), ?_, field_mem_of v3 rfl⟩
      refine Prod.ext ?_ rfl
      simp [Scratch.setBuf, b3, b2]

theorem run_prog {f : CField} (h : FieldReady f) (q : Ask) {m : Scratch} (hm : FieldMem f m) :
    ∃ m', (f.prog q).run m = (askRight f.grid q, m') ∧ FieldMem f m' := by
  cases q with
  | vec x y z => exact run_vec h hm x y z
  | deriv x y z => exact run_deriv h hm x y z
  | flux x y z => exact run_flux h hm x y z
  | fluxDeriv x y z => exact run_fluxDeriv h hm x y z

/-- No evaluation needs more than 107 accesses. -/
theorem atMost_prog (f : CField) (q : Ask) : AccessesAtMost 107 (f.prog q) := by
  have ask := atMost_ask f
  cases q with
  | vec x y z =>
    refine atMost_mono _ (n := 21 + 3) ?_ (by omega)
    refine atMost_seq _ _ ?_ fun _ => atMost_fetch .vec 3 0 _ (n := 0) fun _ => atMost_ret _ _
    exact atMost_seq _ _ (n := 6) (n' := 15) (ask _ _ _) fun _ => atMost_seq _ _ (n := 6) (n' := 9) (ask _ _ _) fun _ =>
      atMost_seq _ _ (n := 6) (n' := 3) (ask _ _ _) fun _ => atMost_storeN .vec _ 0 _ (n := 0) 3 rfl (atMost_ret _ _)
  | deriv x y z =>
    refine atMost_seq _ _ (n := 66) (n' := 41) ?_ fun _ => ?_
    · exact atMost_seq _ _ (n := 6) (n' := 60) (ask _ _ _) fun _ => atMost_seq _ _ (n := 6) (n' := 54) (ask _ _ _) fun _ =>
        atMost_seq _ _ (n := 6) (n' := 48) (ask _ _ _) fun _ => atMost_seq _ _ (n := 6) (n' := 42) (ask _ _ _) fun _ =>
        atMost_seq _ _ (n := 6) (n' := 36) (ask _ _ _) fun _ => atMost_seq _ _ (n := 6) (n' := 30) (ask _ _ _) fun _ =>
        atMost_seq _ _ (n := 6) (n' := 24) (ask _ _ _) fun _ => atMost_seq _ _ (n := 6) (n' := 18) (ask _ _ _) fun _ =>
        atMost_seq _ _ (n := 6) (n' := 12) (ask _ _ _) fun _ =>
        atMost_storeN .vec _ 0 _ (n := 9) 3 rfl (atMost_storeN .jac _ 0 _ (n := 0) 9 rfl (atMost_ret _ _))
    · refine atMost_fetch .jac 9 0 _ (n := 32) fun l => atMost_fetch .vec 3 0 _ (n := 29) fun v => ?_
      dsimp only
      split
      · exact atMost_ret _ _
      · exact atMost_storeN .data _ 0 _ (n := 19) 10 rfl (atMost_fetch .data 10 0 _ (n := 9) fun _ =>
          atMost_fetch .jac 9 0 _ (n := 0) fun _ => atMost_ret _ _)
  | flux x y z =>
    show AccessesAtMost 107 (f.askFlux x y z)
    unfold CField.askFlux
    split
    · exact atMost_ret _ _
    · exact atMost_mono _ (atMost_seq _ _ (n := 6) (n' := 0) (ask _ _ _) fun _ => atMost_ret _ _) (by omega)
  | fluxDeriv x y z =>
    show AccessesAtMost 107 (f.askFluxDeriv x y z)
    unfold CField.askFluxDeriv
    split
    · exact atMost_ret _ _
    · have set : ∀ (i : Nat) (v : ℝ) (n : Nat) (k : Access (LRes (List ℝ))), AccessesAtMost n k →
          AccessesAtMost (n + 1) (.setBuf .flux i v k) := fun _ _ _ _ h => h
      exact atMost_mono _ (n := 6 + 18) (atMost_seq _ _ (ask _ _ _) fun _ => set _ _ 17 _
        (atMost_seq _ _ (n := 6) (n' := 11) (ask _ _ _) fun _ => set _ _ 10 _ (atMost_seq _ _ (n := 6) (n' := 4) (ask _ _ _) fun _ =>
          set _ _ 3 _ (atMost_fetch .flux 3 0 _ (n := 0) fun _ => atMost_ret _ _)))) (by omega)

/-! ### threads -/

section Threads

variable {C β : Type}

/-- What a set of objects needs for its evaluations to be independent of what happened before: `V o` is what holds of the memory
of object `o` between evaluations. -/
structure Evaluable (prog : Nat → C → Access (LRes β)) (right : Nat → C → LRes β) (V : Nat → Scratch → Prop) (N : Nat) : Prop where
  run : ∀ o c m, V o m → ∃ m', (prog o c).run m = (right o c, m') ∧ V o m'
  steps : ∀ o c, AccessesAtMost N (prog o c)

/-- Where a thread is. -/
def WorkerAt (right : Nat → C → LRes β) (V : Nat → Scratch → Prop) (N : Nat) (task : List (Nat × C)) (mem : Nat → Scratch)
    (live : Prop) (cnt : Nat) (pre : List (Nat × C)) (w : Worker C β) : Prop :=
  match w.cur with
  | none => task = pre ++ w.todo ∧ (live → w.todo = [] ∨ w.todo.length * (N + 2) + cnt ≤ task.length * (N + 2))
  | some (o, p) => ∃ c m' n, task = pre ++ (o, c) :: w.todo ∧ p.run (mem o) = (right o c, m') ∧ V o m' ∧ AccessesAtMost n p ∧
      (live → w.todo.length * (N + 2) + n + 1 + cnt ≤ task.length * (N + 2))

structure PoolOk (right : Nat → C → LRes β) (V : Nat → Scratch → Prop) (N : Nat) (owner : Nat → Nat) (tasks : Nat → List (Nat × C))
    (s : Pool C β) (cnt : Nat → Nat) : Prop where
  at_ : ∀ k, ∃ pre, (s.workers k).out = pre.map (fun e => right e.1 e.2) ∧
    WorkerAt right V N (tasks k) s.mem (s.ended = false) (cnt k) pre (s.workers k)
  rest : ∀ o, (∀ p, (s.workers (owner o)).cur ≠ some (o, p)) → V o (s.mem o)
  ended : s.ended = true → ∃ k, ∃ v ∈ (s.workers k).out, v.fatal = true

theorem pool_other {right : Nat → C → LRes β} {V : Nat → Scratch → Prop} {N : Nat} {owner : Nat → Nat} {tasks : Nat → List (Nat × C)}
    {s : Pool C β} {cnt : Nat → Nat} (h : PoolOk right V N owner tasks s cnt) (hown : ∀ k, ∀ e ∈ tasks k, owner e.1 = k) {k : Nat}
    {s' : Pool C β} (hm : ∀ o, owner o ≠ k → s'.mem o = s.mem o) (he : s'.ended = false → s.ended = false) {j : Nat}
    (hw : s'.workers j = s.workers j) (hj : j ≠ k) :
    ∃ pre, (s'.workers j).out = pre.map (fun e => right e.1 e.2) ∧
      WorkerAt right V N (tasks j) s'.mem (s'.ended = false) (cnt j) pre (s'.workers j) := by
  obtain ⟨pre, h1, h2⟩ := h.at_ j
  rw [hw]
  refine ⟨pre, h1, ?_⟩
  generalize s.workers j = w at *
  obtain ⟨todo, cur, out⟩ := w
  cases cur with
  | none => exact ⟨h2.1, fun hl => h2.2 (he hl)⟩
  | some q =>
    obtain ⟨o, p⟩ := q
    obtain ⟨c, m', n, g1, g2, g3, g4, g5⟩ := h2
    have : owner o = j := hown j (o, c) (by rw [g1]; simp)
    exact ⟨c, m', n, g1, by rw [hm o (by omega)]; exact g2, g3, g4, fun hl => g5 (he hl)⟩

theorem poolStep_ok {prog : Nat → C → Access (LRes β)} {right : Nat → C → LRes β} {V : Nat → Scratch → Prop} {N : Nat}
    (he : Evaluable prog right V N) {owner : Nat → Nat} {tasks : Nat → List (Nat × C)} (hown : ∀ k, ∀ e ∈ tasks k, owner e.1 = k)
    {s : Pool C β} {cnt : Nat → Nat} (h : PoolOk right V N owner tasks s cnt) (k : Nat) :
    PoolOk right V N owner tasks (poolStep prog s k) (fun j => if j = k then cnt k + 1 else cnt j) := by
  by_cases hend : s.ended = true
  · rw [poolStep, if_pos hend]
    refine ⟨fun j => ?_, h.rest, h.ended⟩
    obtain ⟨pre, h1, h2⟩ := h.at_ j
    refine ⟨pre, h1, ?_⟩
    generalize s.workers j = w at *
    obtain ⟨todo, cur, out⟩ := w
    cases cur with
    | none => exact ⟨h2.1, fun hl => by rw [hend] at hl; cases hl⟩
    | some q =>
      obtain ⟨o, p⟩ := q
      obtain ⟨c, m', n, g1, g2, g3, g4, g5⟩ := h2
      exact ⟨c, m', n, g1, g2, g3, g4, fun hl => by rw [hend] at hl; cases hl⟩
  have hend' : s.ended = false := by simpa using hend
  obtain ⟨pre, h1, h2⟩ := h.at_ k
  rw [poolStep, if_neg hend]
  rcases hW : s.workers k with ⟨todo, cur, out⟩
  rw [hW] at h1 h2
  cases cur with
  | none =>
    cases todo with
    | nil =>
      refine ⟨fun j => ?_, h.rest, h.ended⟩
      by_cases hj : j = k
      · subst hj
        rw [hW]
        exact ⟨pre, h1, h2.1, fun _ => Or.inl rfl⟩
      · simp only [if_neg hj]
        exact h.at_ j
    | cons e es =>
      dsimp only
      have hoe : owner e.1 = k := hown k e (by rw [h2.1]; simp)
      have hV : V e.1 (s.mem e.1) := h.rest e.1 fun p hp => by rw [hoe, hW] at hp; cases hp
      refine ⟨fun j => ?_, fun o ho => ?_, fun hx => ?_⟩
      · by_cases hj : j = k
        · subst hj
          simp only [Pool.setWorker, if_true]
          refine ⟨pre, h1, ?_⟩
          obtain ⟨m', r1, r2⟩ := he.run e.1 e.2 _ hV
          refine ⟨e.2, m', N, h2.1, r1, r2, he.steps e.1 e.2, fun hl => ?_⟩
          rcases h2.2 hl with h3 | h3
          · cases h3
          · simp only [List.length_cons] at h3
            rw [Nat.succ_mul] at h3
            dsimp only
            omega
        · simp only [if_neg hj]
          exact pool_other (s' := s.setWorker k ⟨es, some (e.1, prog e.1 e.2), out⟩) h hown (fun _ _ => rfl) (fun h => h)
            (by simp [Pool.setWorker, hj]) hj
      · refine h.rest o fun p hp => ?_
        by_cases hok : owner o = k
        · rw [hok, hW] at hp; cases hp
        · exact ho p (by simpa [Pool.setWorker, hok] using hp)
      · exact absurd hx hend
  | some q =>
    obtain ⟨o, p⟩ := q
    obtain ⟨c, m', n, g1, g2, g3, g4, g5⟩ := h2
    have hoe : owner o = k := hown k (o, c) (by rw [g1]; simp)
    have access : (∀ a, p ≠ .ret a) → PoolOk right V N owner tasks
        ((s.setMem o (p.step (s.mem o)).2).setWorker k ⟨todo, some (o, (p.step (s.mem o)).1), out⟩)
        (fun j => if j = k then cnt k + 1 else cnt j) := by
      intro hp
      obtain ⟨t, rfl⟩ : ∃ t, n = t + 1 := by
        cases n with
        | zero => cases p with
          | ret a => exact absurd rfl (hp a)
          | _ => exact g4.elim
        | succ t => exact ⟨t, rfl⟩
      refine ⟨fun j => ?_, fun o' ho' => ?_, fun hx => ?_⟩
      · by_cases hj : j = k
        · subst hj
          simp only [Pool.setWorker, if_true]
          refine ⟨pre, h1, ?_⟩
          refine ⟨c, m', t, g1, ?_, g3, atMost_step p _ g4, fun hl => ?_⟩
          · simp only [Pool.setMem, if_true]
            rw [run_step]
            exact g2
          · have := g5 hl
            dsimp only at this ⊢
            omega
        · simp only [if_neg hj]
          refine pool_other (s' := (s.setMem o (p.step (s.mem o)).2).setWorker k ⟨todo, some (o, (p.step (s.mem o)).1), out⟩) h hown
            (k := k) (fun o' ho' => ?_) (fun h => h) (by simp [Pool.setWorker, Pool.setMem, hj]) hj
          simp only [Pool.setWorker, Pool.setMem]
          rw [if_neg]
          rintro rfl
          exact ho' hoe
      · have hne : o' ≠ o := by
          rintro rfl
          refine ho' (p.step (s.mem o')).1 ?_
          simp [Pool.setWorker, hoe]
        simp only [Pool.setWorker, Pool.setMem, if_neg hne]
        refine h.rest o' fun p' hp' => ?_
        by_cases hok : owner o' = k
        · rw [hok, hW] at hp'
          simp only [Option.some.injEq, Prod.mk.injEq] at hp'
          exact hne hp'.1.symm
        · exact ho' p' (by simpa [Pool.setWorker, Pool.setMem, hok] using hp')
      · exact absurd hx (by simp [Pool.setWorker, Pool.setMem, hend'])
    cases p with
    | ret v =>
      simp only [Access.run, Prod.mk.injEq] at g2
      obtain ⟨rfl, rfl⟩ := g2
      dsimp only
      refine ⟨fun j => ?_, fun o' ho' => ?_, fun hx => ?_⟩
      · by_cases hj : j = k
        · subst hj
          simp only [Pool.setWorker, if_true]
          dsimp only at h1
          refine ⟨pre ++ [(o, c)], by simp [h1], ?_⟩
          refine ⟨by simp [g1], fun _ => ?_⟩
          have := g5 hend'
          right
          dsimp only at this ⊢
          omega
        · simp only [if_neg hj]
          exact pool_other (s' := { s.setWorker k ⟨todo, none, out ++ [right o c]⟩ with ended := (right o c).fatal }) h hown
            (fun _ _ => rfl) (fun _ => hend') (by simp [Pool.setWorker, hj]) hj
      · by_cases hne : o' = o
        · subst hne; exact g3
        · refine h.rest o' fun p' hp' => ?_
          by_cases hok : owner o' = k
          · rw [hok, hW] at hp'
            simp only [Option.some.injEq, Prod.mk.injEq] at hp'
            exact hne hp'.1.symm
          · exact ho' p' (by simpa [Pool.setWorker, hok] using hp')
      · exact ⟨k, _, by simp [Pool.setWorker], hx⟩
    | _ => exact access (by intro a ha; cases ha)

theorem poolRun_ok {prog : Nat → C → Access (LRes β)} {right : Nat → C → LRes β} {V : Nat → Scratch → Prop} {N : Nat}
    (he : Evaluable prog right V N) {owner : Nat → Nat} {tasks : Nat → List (Nat × C)} (hown : ∀ k, ∀ e ∈ tasks k, owner e.1 = k)
    (sched : List Nat) {s : Pool C β} {cnt : Nat → Nat} (h : PoolOk right V N owner tasks s cnt) :
    PoolOk right V N owner tasks (poolRun prog s sched) (fun j => cnt j + sched.count j) := by
  induction sched generalizing s cnt with
  | nil => exact h
  | cons k ks ih =>
    have := ih (poolStep_ok he hown h k)
    have e : (fun j => (if j = k then cnt k + 1 else cnt j) + ks.count j) = fun j => cnt j + (k :: ks).count j := by
      funext j
      rw [List.count_cons]
      by_cases hj : j = k
      · subst hj; simp; omega
      · have : (k == j) = false := by simpa using Ne.symm hj
        simp [hj, this]
    rw [e] at this
    exact this

/-- Every thread has its own objects: its results are the right ones, in any schedule, and it gets all of them. -/
theorem pool_right {prog : Nat → C → Access (LRes β)} {right : Nat → C → LRes β} {V : Nat → Scratch → Prop} {N : Nat}
    (he : Evaluable prog right V N) {owner : Nat → Nat} {tasks : Nat → List (Nat × C)} (hown : ∀ k, ∀ e ∈ tasks k, owner e.1 = k)
    {mem : Nat → Scratch} (hm : ∀ o, V o (mem o)) (sched : List Nat) (k : Nat) :
    ((poolRun prog (poolStart mem tasks) sched).workers k).out <+: (tasks k).map (fun e => right e.1 e.2) ∧
      ((∀ j, ∀ e ∈ tasks j, (right e.1 e.2).fatal = false) → (tasks k).length * (N + 2) ≤ sched.count k →
        ((poolRun prog (poolStart mem tasks) sched).workers k).out = (tasks k).map fun e => right e.1 e.2) := by
  have h := poolRun_ok (s := poolStart mem tasks) (cnt := fun _ => 0) he hown sched
    ⟨fun k => ⟨[], rfl, rfl, fun _ => Or.inr (by simp [poolStart])⟩, fun o _ => hm o, fun hx => by (cases hx)⟩
  have hpre : ∀ j, ∃ pre rest, tasks j = pre ++ rest ∧ ((poolRun prog (poolStart mem tasks) sched).workers j).out =
      pre.map fun e => right e.1 e.2 := by
    intro j
    obtain ⟨pre, h1, h2⟩ := h.at_ j
    generalize (poolRun prog (poolStart mem tasks) sched).workers j = w at *
    obtain ⟨todo, cur, out⟩ := w
    cases cur with
    | none => exact ⟨pre, _, h2.1, h1⟩
    | some q => obtain ⟨c, m', n, g1, -⟩ := h2; exact ⟨pre, _, g1, h1⟩
  refine ⟨?_, fun hf hc => ?_⟩
  · obtain ⟨pre, rest, h1, h2⟩ := hpre k
    rw [h2, h1, List.map_append]
    exact List.prefix_append _ _
  · have hlive : (poolRun prog (poolStart mem tasks) sched).ended = false := by
      by_contra hx
      obtain ⟨j, v, hv, hb⟩ := h.ended (by simpa using hx)
      obtain ⟨pre, rest, h1, h2⟩ := hpre j
      rw [h2, List.mem_map] at hv
      obtain ⟨e, he', rfl⟩ := hv
      rw [hf j e (by rw [h1]; simp [he'])] at hb
      cases hb
    obtain ⟨pre, h1, h2⟩ := h.at_ k
    generalize (poolRun prog (poolStart mem tasks) sched).workers k = w at *
    obtain ⟨todo, cur, out⟩ := w
    cases cur with
    | none =>
      rcases h2.2 hlive with h3 | h3
      · dsimp only at h3
        subst h3
        rw [h2.1]
        simpa using h1
      · dsimp only at h3 h1 ⊢
        have h4 := h2.1
        dsimp only at h4
        cases todo with
        | nil => rw [h4]; simpa using h1
        | cons e es =>
          simp only [List.length_cons, Nat.succ_mul] at h3
          omega
    | some q =>
      obtain ⟨c, m', n, g1, g2, g3, g4, g5⟩ := h2
      have := g5 hlive
      dsimp only at this
      omega

end Threads

/-! ### one object, two threads -/

section Shared

variable {C β : Type}

theorem seq_seq {α γ : Type} (p : Access (LRes α)) (g : α → Access (LRes γ)) (k : γ → Access (LRes β)) :
    (p.seq g).seq k = p.seq fun a => (g a).seq k := by
  induction p with
  | ret r => cases r <;> rfl
  | getAcc i q ih => simp only [Access.seq, ih]
  | setAcc i n q ih => simp only [Access.seq, ih]
  | getBuf b i q ih => simp only [Access.seq, ih]
  | setBuf b i v q ih => simp only [Access.seq, ih]

theorem poolRun_append (prog : Nat → C → Access (LRes β)) (s : Pool C β) (l l' : List Nat) :
    poolRun prog s (l ++ l') = poolRun prog (poolRun prog s l) l' := by
  induction l generalizing s with
  | nil => rfl
  | cons k ks ih => exact ih _

theorem pool_access (prog : Nat → C → Access (LRes β)) {s : Pool C β} (hl : s.ended = false) {k o : Nat} {todo : List (Nat × C)}
    {P Q : Access (LRes β)} {out : List (LRes β)} (hw : s.workers k = ⟨todo, some (o, P), out⟩) (hP : ∀ r, P ≠ .ret r) {m1 : Scratch}
    (hst : P.step (s.mem o) = (Q, m1)) : poolStep prog s k = (s.setMem o m1).setWorker k ⟨todo, some (o, Q), out⟩ := by
  unfold poolStep
  rw [if_neg (by rw [hl]; decide), hw]
  dsimp only
  cases P with
  | ret r => exact absurd rfl (hP r)
  | _ => dsimp only; rw [hst]

theorem pool_twice (s : Pool C β) (o k : Nat) (m1 m2 : Scratch) (w1 w2 : Worker C β) :
    (((s.setMem o m1).setWorker k w1).setMem o m2).setWorker k w2 = (s.setMem o m2).setWorker k w2 := by
  simp only [Pool.setWorker, Pool.setMem, Pool.mk.injEq, and_true]
  constructor
  · funext j; split <;> rfl
  · funext j; split <;> rfl

theorem pool_same {s : Pool C β} {o k : Nat} {w : Worker C β} (hw : s.workers k = w) : s = (s.setMem o (s.mem o)).setWorker k w := by
  obtain ⟨mem, workers, ended⟩ := s
  simp only [Pool.setWorker, Pool.setMem, Pool.mk.injEq, and_true]
  constructor
  · funext j; split
    · next h => rw [h]
    · rfl
  · funext j; split
    · next h => rw [h]; exact hw
    · rfl

theorem pool_then (prog : Nat → C → Access (LRes β)) {s t : Pool C β} (hl : s.ended = false) {k o : Nat} {todo : List (Nat × C)}
    {P Q : Access (LRes β)} {out : List (LRes β)} (hw : s.workers k = ⟨todo, some (o, P), out⟩) (hP : ∀ r, P ≠ .ret r) {m1 : Scratch}
    (hst : P.step (s.mem o) = (Q, m1))
    (ih : ∃ n, poolRun prog ((s.setMem o m1).setWorker k ⟨todo, some (o, Q), out⟩) (List.replicate n k) = t) :
    ∃ n, poolRun prog s (List.replicate n k) = t := by
  obtain ⟨n, hn⟩ := ih
  refine ⟨n + 1, ?_⟩
  rw [List.replicate_succ]
  show poolRun prog (poolStep prog s k) _ = _
  rw [pool_access prog hl hw hP hst]
  exact hn

/-- A thread that is alone does the first part of its program. -/
theorem pool_advance {α : Type} (prog : Nat → C → Access (LRes β)) (p : Access (LRes α)) (g : α → Access (LRes β)) (o k : Nat)
    (todo : List (Nat × C)) (out : List (LRes β)) (a : α) (m' : Scratch) (s : Pool C β) (hl : s.ended = false)
    (hw : s.workers k = ⟨todo, some (o, p.seq g), out⟩) (hr : p.run (s.mem o) = (.ok a, m')) :
    ∃ n, poolRun prog s (List.replicate n k) = (s.setMem o m').setWorker k ⟨todo, some (o, g a), out⟩ := by
  induction p generalizing s with
  | ret r =>
    simp only [Access.run, Prod.mk.injEq] at hr
    obtain ⟨rfl, rfl⟩ := hr
    exact ⟨0, pool_same hw⟩
  | getAcc i q ih =>
    refine pool_then prog hl hw (by intro r h; cases h) (m1 := s.mem o) rfl ?_
    rw [← pool_twice s o k (s.mem o) m' ⟨todo, some (o, (q ((s.mem o).acc i)).seq g), out⟩]
    exact ih ((s.mem o).acc i) _ hl (by simp [Pool.setWorker]) (by simp only [Pool.setWorker, Pool.setMem, if_true]; exact hr)
  | setAcc i n q ih =>
    refine pool_then prog hl hw (by intro r h; cases h) (m1 := (s.mem o).setAcc i n) rfl ?_
    rw [← pool_twice s o k ((s.mem o).setAcc i n) m' ⟨todo, some (o, q.seq g), out⟩]
    exact ih _ hl (by simp [Pool.setWorker]) (by simp only [Pool.setWorker, Pool.setMem, if_true]; exact hr)
  | getBuf b i q ih =>
    refine pool_then prog hl hw (by intro r h; cases h) (m1 := s.mem o) rfl ?_
    rw [← pool_twice s o k (s.mem o) m' ⟨todo, some (o, (q ((s.mem o).buf b i)).seq g), out⟩]
    exact ih ((s.mem o).buf b i) _ hl (by simp [Pool.setWorker]) (by simp only [Pool.setWorker, Pool.setMem, if_true]; exact hr)
  | setBuf b i v q ih =>
    refine pool_then prog hl hw (by intro r h; cases h) (m1 := (s.mem o).setBuf b i v) rfl ?_
    rw [← pool_twice s o k ((s.mem o).setBuf b i v) m' ⟨todo, some (o, q.seq g), out⟩]
    exact ih _ hl (by simp [Pool.setWorker]) (by simp only [Pool.setWorker, Pool.setMem, if_true]; exact hr)

/-- A thread that is alone finishes its evaluation. -/
theorem pool_finish (prog : Nat → C → Access (LRes β)) (p : Access (LRes β)) (o k : Nat) (todo : List (Nat × C)) (out : List (LRes β))
    (v : LRes β) (m' : Scratch) (s : Pool C β) (hl : s.ended = false) (hw : s.workers k = ⟨todo, some (o, p), out⟩)
    (hr : p.run (s.mem o) = (v, m')) :
    ∃ n, poolRun prog s (List.replicate n k) =
      { (s.setMem o m').setWorker k ⟨todo, none, out ++ [v]⟩ with ended := v.fatal } := by
  induction p generalizing s with
  | ret r =>
    simp only [Access.run, Prod.mk.injEq] at hr
    obtain ⟨rfl, rfl⟩ := hr
    refine ⟨1, ?_⟩
    show poolStep prog s k = _
    unfold poolStep
    rw [if_neg (by rw [hl]; decide), hw]
    simp only [Pool.setWorker, Pool.setMem, Pool.mk.injEq, and_true]
    funext j; split
    · next h => rw [h]
    · rfl
  | getAcc i q ih =>
    refine pool_then prog hl hw (by intro r h; cases h) (m1 := s.mem o) rfl ?_
    rw [← pool_twice s o k (s.mem o) m' ⟨todo, some (o, q ((s.mem o).acc i)), out⟩]
    exact ih ((s.mem o).acc i) _ hl (by simp [Pool.setWorker]) (by simp only [Pool.setWorker, Pool.setMem, if_true]; exact hr)
  | setAcc i n q ih =>
    refine pool_then prog hl hw (by intro r h; cases h) (m1 := (s.mem o).setAcc i n) rfl ?_
    rw [← pool_twice s o k ((s.mem o).setAcc i n) m' ⟨todo, some (o, q), out⟩]
    exact ih _ hl (by simp [Pool.setWorker]) (by simp only [Pool.setWorker, Pool.setMem, if_true]; exact hr)
  | getBuf b i q ih =>
    refine pool_then prog hl hw (by intro r h; cases h) (m1 := s.mem o) rfl ?_
    rw [← pool_twice s o k (s.mem o) m' ⟨todo, some (o, q ((s.mem o).buf b i)), out⟩]
    exact ih ((s.mem o).buf b i) _ hl (by simp [Pool.setWorker]) (by simp only [Pool.setWorker, Pool.setMem, if_true]; exact hr)
  | setBuf b i v q ih =>
    refine pool_then prog hl hw (by intro r h; cases h) (m1 := (s.mem o).setBuf b i v) rfl ?_
    rw [← pool_twice s o k ((s.mem o).setBuf b i v) m' ⟨todo, some (o, q), out⟩]
    exact ih _ hl (by simp [Pool.setWorker]) (by simp only [Pool.setWorker, Pool.setMem, if_true]; exact hr)

theorem pool_begin (prog : Nat → C → Access (LRes β)) {s : Pool C β} (hl : s.ended = false) {k : Nat} {e : Nat × C}
    {es : List (Nat × C)} {out : List (LRes β)} (hw : s.workers k = ⟨e :: es, none, out⟩) :
    poolStep prog s k = s.setWorker k ⟨es, some (e.1, prog e.1 e.2), out⟩ := by
  unfold poolStep
  rw [if_neg (by rw [hl]; decide), hw]

end Shared

/-! ### the claims -/

/-- Clones, and clones of clones. -/
inductive ClonedFrom (f : NField) : NField → Prop where
  | self : ClonedFrom f f
  | clone {f' f'' : NField} (h : ClonedFrom f f') (hc : f'.clone = .ok f'') : ClonedFrom f f''

theorem clone_arrays {f f' : NField} (h : f.clone = .ok f') :
    f'.R = f.R ∧ f'.Z = f.Z ∧ f'.Br = f.Br ∧ f'.Bphi = f.Bphi ∧ f'.Bz = f.Bz ∧ f'.Psi = f.Psi := by
  unfold NField.clone nInit finish at h
  split at h
  · cases h
  · split at h
    · cases h
    · cases h
    · obtain rfl := Res.ok.inj h
      exact ⟨rfl, rfl, rfl, rfl, rfl, rfl⟩

theorem cloned_cells (cells : List ℝ → List ℝ → List ℝ → CellSpl) {f f' : NField} (h : ClonedFrom f f') :
    f'.cells cells = f.cells cells := by
  induction h with
  | self => rfl
  | clone h hc ih =>
    obtain ⟨h1, h2, h3, h4, h5, h6⟩ := clone_arrays hc
    rw [← ih]
    unfold NField.cells
    rw [h1, h2, h3, h4, h5, h6]

/-- A field that was made has grids that GSL accepts, and evaluates the splines of its cells. -/
theorem made_ready (cells : List ℝ → List ℝ → List ℝ → CellSpl) {f : NField} {g : NGrid}
    (h : f.initInterpolation (fun R Z V => (cells R Z V).spl R Z) = .ok g) :
    FieldReady (f.cells cells) ∧ g = (f.cells cells).grid := by
  obtain ⟨hg, ha⟩ := ((C119_outcomes (fun R Z V => (cells R Z V).spl R Z) f).1).1 ⟨g, h⟩
  rw [C119_splines _ f hg ha] at h
  have h1 := hg.rows
  have h2 := hg.columns
  refine ⟨⟨⟨by show 2 ≤ f.R.length; omega, hg.radii⟩, ⟨by show 2 ≤ f.Z.length; omega, hg.heights⟩⟩, ?_⟩
  rw [← LRes.ok.inj h]
  unfold NField.grid CField.grid NField.cells
  simp only [Option.map_map]
  rfl

/-- The memory of a new object: `gsl_interp_accel_alloc` sets the cell to 0, the buffers are not initialised. -/
def NewMem (m : Scratch) : Prop := m.acc 0 = 0 ∧ m.acc 1 = 0

theorem new_fieldMem {f : CField} (h : FieldReady f) {m : Scratch} (hm : NewMem m) : FieldMem f m := by
  have h1 := h.r.two
  have h2 := h.z.two
  exact ⟨by rw [hm.1]; omega, by rw [hm.2]; omega⟩

/-- C122: the search with an accelerator finds the cell of the point, whatever cell was found last, and reads nothing outside
the grid: the cell that starts at or before the point and ends after it; the first cell for points before the grid, the last one
for points at or after its end. -/
theorem C122_cell (a : Nat) (xs : List ℝ) (h2 : 2 ≤ xs.length) (hinc : xs.Pairwise (· < ·)) (x : ℝ) (m : Scratch)
    (hm : m.acc a + 1 < xs.length) :
    ∃ i u v, (accelFind a xs x).run m = (.ok i, m.setAcc a i) ∧ xs[i]? = some u ∧ xs[i + 1]? = some v ∧ (i = 0 ∨ u ≤ x) ∧
      (i + 2 = xs.length ∨ x < v) := by
  obtain ⟨u, v, hu, hv, hl, hr⟩ := cellOf_spec xs x h2
  exact ⟨cellOf xs x, u, v, run_find ⟨h2, hinc⟩ a x m hm, hu, hv, hl, hr⟩

/-- C122: any number of evaluations of one field, in any order: every one gives what the field is there, whatever was asked
before. -/
theorem C122_history (cells : List ℝ → List ℝ → List ℝ → CellSpl) (f : NField) (g : NGrid)
    (h : f.initInterpolation (fun R Z V => (cells R Z V).spl R Z) = .ok g) (qs : List Ask) (m : Scratch) (hm : NewMem m) :
    runAll (f.cells cells).prog qs m = qs.map (askRight g) := by
  obtain ⟨hr, rfl⟩ := made_ready cells h
  have hv := new_fieldMem hr hm
  clear hm
  induction qs generalizing m with
  | nil => rfl
  | cons q qs ih =>
    obtain ⟨m', e, v⟩ := run_prog hr q hv
    simp only [runAll, List.map_cons, e, ih m' v]

/-- C122: several threads, each with its own clones of a field (any number of them, and clones of clones): in every schedule
every thread gets, in order, what the field is at the points it asks for, and after 109 steps for every evaluation it has all of
it, unless an evaluation of the flux outside of the grid has ended the program. -/
theorem C122_parallel (cells : List ℝ → List ℝ → List ℝ → CellSpl) (f : NField) (g : NGrid)
    (h : f.initInterpolation (fun R Z V => (cells R Z V).spl R Z) = .ok g) (obj : Nat → NField) (hobj : ∀ o, ClonedFrom f (obj o))
    (owner : Nat → Nat) (tasks : Nat → List (Nat × Ask)) (hown : ∀ k, ∀ e ∈ tasks k, owner e.1 = k) (mem : Nat → Scratch)
    (hm : ∀ o, NewMem (mem o)) (sched : List Nat) (k : Nat) :
    let out := ((poolRun (fun o => ((obj o).cells cells).prog) (poolStart mem tasks) sched).workers k).out
    out <+: (tasks k).map (fun e => askRight g e.2) ∧
      ((∀ j, ∀ e ∈ tasks j, askRight g e.2 ≠ .aborts) → 109 * (tasks k).length ≤ sched.count k →
        out = (tasks k).map fun e => askRight g e.2) := by
  obtain ⟨hr, rfl⟩ := made_ready cells h
  have hprog : (fun o => ((obj o).cells cells).prog) = fun _ : Nat => (f.cells cells).prog := by
    funext o
    rw [cloned_cells cells (hobj o)]
  dsimp only
  rw [hprog]
  have he : Evaluable (fun _ : Nat => (f.cells cells).prog) (fun _ q => askRight (f.cells cells).grid q)
      (fun _ m => FieldMem (f.cells cells) m) 107 :=
    ⟨fun _ q m hv => run_prog hr q hv, fun _ q => atMost_prog _ q⟩
  obtain ⟨h1, h2⟩ := pool_right he hown (mem := mem) (fun o => new_fieldMem hr (hm o)) sched k
  refine ⟨h1, fun hf hc => h2 (fun j e hj => ?_) (by omega)⟩
  have hna := hf j e hj
  have hnu : ∀ q, askRight (f.cells cells).grid q ≠ .ub := by
    intro q
    have hb : ∀ {α γ : Type} (r z : ℝ) (v : α) (k : α → LRes γ), (∀ a, k a ≠ .ub) →
        (((f.cells cells).grid.ask r z v).bind k) ≠ .ub := by
      intro α γ r z v k hk
      rcases ask_cases (f.cells cells).grid r z with hc | hc
      · rw [hc]; exact fun h => by cases h
      · rw [hc]; exact hk v
    cases q with
    | vec x y z => exact hb _ _ _ _ fun a h => by cases h
    | deriv x y z =>
      intro hx
      unfold askRight NGrid.evalDerivativesG at hx
      dsimp only at hx
      rcases ask_cases (f.cells cells).grid (clampTo (f.cells cells).grid.rmin (f.cells cells).grid.rmax (hyp x y))
        (clampTo (f.cells cells).grid.zmin (f.cells cells).grid.zmax z) with hc | hc
      · rw [hc] at hx; cases hx
      · rw [hc] at hx
        cases hd : (f.cells cells).grid.evalDerivatives x y z with
        | none => rw [hd] at hx; cases hx
        | some d => rw [hd] at hx; cases hx
    | flux x y z =>
      intro hx
      unfold askRight NGrid.fluxG at hx
      dsimp only at hx
      cases hd : (f.cells cells).grid.flux x y z with
      | none => rw [hd] at hx; cases hx
      | some d => rw [hd] at hx; exact hb _ _ _ _ (fun a h => by cases h) hx
    | fluxDeriv x y z =>
      intro hx
      unfold askRight NGrid.fluxDerivativesG at hx
      dsimp only at hx
      cases hd : (f.cells cells).grid.fluxDerivatives x y z with
      | none => rw [hd] at hx; cases hx
      | some d => rw [hd] at hx; exact hb _ _ _ _ (fun a h => by cases h) hx
  have hnu' := hnu e.2
  generalize askRight (f.cells cells).grid e.2 = r at *
  cases r with
  | ub => exact absurd rfl hnu'
  | aborts => exact absurd rfl hna
  | _ => rfl

/-- C122: two threads that evaluate one and the same field at any two points: with some schedule the first gets the field at the
point of the second. -/
theorem C122_shared_vector (cells : List ℝ → List ℝ → List ℝ → CellSpl) (f : NField) (g : NGrid)
    (h : f.initInterpolation (fun R Z V => (cells R Z V).spl R Z) = .ok g) (m : Scratch) (hm : NewMem m) (x y z x' y' z' : ℝ) :
    ∃ sched : List Nat, ((poolRun (fun _ => (f.cells cells).prog)
      (poolStart (fun _ => m) fun k => if k = 0 then [(0, .vec x y z)] else if k = 1 then [(0, .vec x' y' z')] else [])
      sched).workers 0).out = [askRight g (.vec x' y' z')] := by
  obtain ⟨hr, rfl⟩ := made_ready cells h
  have hv := new_fieldMem hr hm
  generalize f.cells cells = F at *
  obtain ⟨m1, e1, v1, -⟩ := run_storeVec hr hv x y z
  obtain ⟨m2, e2, v2, r2⟩ := run_storeVec hr v1 x' y' z'
  generalize hs0 : (poolStart (fun _ => m) (fun k => if k = 0 then [(0, Ask.vec x y z)] else if k = 1 then [(0, .vec x' y' z')] else []) :
    Pool Ask (List ℝ)) = s0
  let prog : Nat → Ask → Access (LRes (List ℝ)) := fun _ => F.prog
  have b0 := pool_begin prog (s := s0) (k := 0) (e := (0, .vec x y z)) (es := []) (out := []) (by subst hs0; rfl) (by subst hs0; rfl)
  generalize hs1 : s0.setWorker 0 ⟨[], some (0, prog 0 (.vec x y z)), []⟩ = s1 at b0
  obtain ⟨n0, a0⟩ := pool_advance prog (F.storeVec x y z) (fun _ => fetchFrom .vec 0 3 fun l => .ret (.ok l)) 0 0 [] [] () m1 s1
    (by subst hs1; subst hs0; rfl) (by subst hs1; simp [Pool.setWorker]; rfl) (by subst hs1; subst hs0; exact e1)
  generalize hs2 : (s1.setMem 0 m1).setWorker 0 ⟨[], some (0, fetchFrom .vec 0 3 fun l => .ret (.ok l)), []⟩ = s2 at a0
  have b1 := pool_begin prog (s := s2) (k := 1) (e := (0, .vec x' y' z')) (es := []) (out := []) (by subst hs2; subst hs1; subst hs0; rfl)
    (by subst hs2; subst hs1; subst hs0; rfl)
  generalize hs3 : s2.setWorker 1 ⟨[], some (0, prog 0 (.vec x' y' z')), []⟩ = s3 at b1
  obtain ⟨n1, a1⟩ := pool_advance prog (F.storeVec x' y' z') (fun _ => fetchFrom .vec 0 3 fun l => .ret (.ok l)) 0 1 [] [] () m2 s3
    (by subst hs3; subst hs2; subst hs1; subst hs0; rfl) (by subst hs3; simp [Pool.setWorker]; rfl)
    (by subst hs3; subst hs2; exact e2)
  generalize hs4 : (s3.setMem 0 m2).setWorker 1 ⟨[], some (0, fetchFrom .vec 0 3 fun l => .ret (.ok l)), []⟩ = s4 at a1
  obtain ⟨n2, a2⟩ := pool_finish prog (fetchFrom .vec 0 3 fun l => .ret (.ok l)) 0 0 [] []
    (.ok [m2.buf .vec 0, m2.buf .vec 1, m2.buf .vec 2]) m2 s4
    (by subst hs4; subst hs3; subst hs2; subst hs1; subst hs0; rfl) (by subst hs4; subst hs3; subst hs2; rfl)
    (by subst hs4; rfl)
  refine ⟨[0] ++ List.replicate n0 0 ++ [1] ++ List.replicate n1 1 ++ List.replicate n2 0, ?_⟩
  rw [poolRun_append, poolRun_append, poolRun_append, poolRun_append]
  show ((poolRun prog (poolRun prog (poolStep prog (poolRun prog (poolStep prog s0 0) _) 1) _) _).workers 0).out = _
  rw [b0, a0, b1, a1, a2, r2]
  rfl

/-- C122: and the flux, which is returned by value: with some schedule the first thread gets the value, at its point, of the
polynomial that belongs to the radial interval of the second. -/
theorem C122_shared_cell (cells : List ℝ → List ℝ → List ℝ → CellSpl) (f : NField) (g : NGrid)
    (h : f.initInterpolation (fun R Z V => (cells R Z V).spl R Z) = .ok g) (psi : List ℝ) (hpsi : f.Psi = some psi) (m : Scratch)
    (hm : NewMem m) (x y z x' y' z' : ℝ) (hin : ∃ v, askRight g (.flux x y z) = .ok v) (hin' : ∃ v, askRight g (.flux x' y' z') = .ok v) :
    ∃ sched : List Nat, ((poolRun (fun _ => (f.cells cells).prog)
      (poolStart (fun _ => m) fun k => if k = 0 then [(0, .flux x y z)] else if k = 1 then [(0, .flux x' y' z')] else [])
      sched).workers 0).out = [.ok [(cells f.R f.Z psi).val (cellOf f.R (hyp x' y')) (cellOf f.Z z) (hyp x y) z]] := by
  obtain ⟨hr, rfl⟩ := made_ready cells h
  have hv := new_fieldMem hr hm
  have hFpsi : (f.cells cells).psi = some (cells f.R f.Z psi) := by simp [NField.cells, hpsi]
  have hFR : (f.cells cells).R = f.R := rfl
  have hFZ : (f.cells cells).Z = f.Z := rfl
  generalize cells f.R f.Z psi = sp at *
  rw [← hFR, ← hFZ]
  clear hFR hFZ
  generalize f.cells cells = F at *
  have inRange : ∀ x y z : ℝ, (∃ v, askRight F.grid (.flux x y z) = .ok v) →
      ¬ (hyp x y < F.R.headD 0 ∨ hyp x y > F.R.getLastD 0) ∧ ¬ (z < F.Z.headD 0 ∨ z > F.Z.getLastD 0) := by
    rintro x y z ⟨v, hx⟩
    unfold askRight NGrid.fluxG NGrid.flux NGrid.ask at hx
    have e : F.grid.psi = some (sp.spl F.R F.Z) := by simp [CField.grid, hFpsi]
    rw [e] at hx
    dsimp only [Option.map_some, must, LRes.bind] at hx
    constructor
    · intro h1
      rw [if_pos (by exact h1)] at hx
      cases hx
    · intro h2
      by_cases h1 : hyp x y < F.R.headD 0 ∨ hyp x y > F.R.getLastD 0
      · rw [if_pos (by exact h1)] at hx; cases hx
      · rw [if_neg (by exact h1), if_pos (by exact h2)] at hx; cases hx
  have shape : ∀ x y z : ℝ, (∃ v, askRight F.grid (.flux x y z) = .ok v) → F.prog (.flux x y z) =
      (accelUpdate 0 F.R (hyp x y)).seq fun _ => .getAcc 0 fun i => (accelFind 1 F.Z z).seq fun j => .ret (.ok [sp.val i j (hyp x y) z]) := by
    intro x y z hx
    obtain ⟨h1, h2⟩ := inRange x y z hx
    show F.askFlux x y z = _
    unfold CField.askFlux
    rw [hFpsi]
    dsimp only
    unfold CField.ask
    rw [if_neg h1, if_neg h2]
    unfold accelFind
    rw [seq_seq, seq_seq]
    simp only [Access.seq]
    congr 1
    funext _
    congr 1
    funext i
    rw [seq_seq, seq_seq, seq_seq]
    rfl
  have upd : ∀ (m : Scratch) (x z : ℝ) (i : Nat), FieldMem F m → FieldMem F ((m.setAcc 0 (cellOf F.R x)).setAcc 1 (cellOf F.Z z)) := by
    intro m x z i h
    exact ⟨by simpa [Scratch.setAcc] using cellOf_lt hr.r x, by simpa [Scratch.setAcc] using cellOf_lt hr.z z⟩
  have e1 := run_update hr.r 0 (hyp x y) m hv.r
  generalize hm1 : m.setAcc 0 (cellOf F.R (hyp x y)) = m1 at e1
  have v1 : FieldMem F m1 := ⟨by subst hm1; simpa [Scratch.setAcc] using cellOf_lt hr.r (hyp x y), by subst hm1; exact hv.z⟩
  have e2 : (F.prog (.flux x' y' z')).run m1 = (.ok [sp.val (cellOf F.R (hyp x' y')) (cellOf F.Z z') (hyp x' y') z'],
      (m1.setAcc 0 (cellOf F.R (hyp x' y'))).setAcc 1 (cellOf F.Z z')) := by
    rw [shape _ _ _ hin', run_seq _ _ _ (run_update hr.r 0 (hyp x' y') m1 v1.r)]
    simp only [Access.run]
    rw [run_seq _ _ _ (run_find hr.z 1 z' (m1.setAcc 0 _) v1.z)]
    simp [Access.run, Scratch.setAcc]
  generalize hm2 : (m1.setAcc 0 (cellOf F.R (hyp x' y'))).setAcc 1 (cellOf F.Z z') = m2 at e2
  have a20 : m2.acc 0 = cellOf F.R (hyp x' y') := by subst hm2; simp [Scratch.setAcc]
  have v2 : FieldMem F m2 := by subst hm2; exact upd m1 _ _ 0 v1
  have e3 : (Access.getAcc 0 fun i => (accelFind 1 F.Z z).seq fun j => .ret (.ok [sp.val i j (hyp x y) z])).run m2 =
      (.ok [sp.val (cellOf F.R (hyp x' y')) (cellOf F.Z z) (hyp x y) z], m2.setAcc 1 (cellOf F.Z z)) := by
    simp only [Access.run]
    rw [run_seq _ _ _ (run_find hr.z 1 z m2 v2.z), a20]
    rfl
  generalize hs0 : (poolStart (fun _ => m) (fun k => if k = 0 then [(0, Ask.flux x y z)] else if k = 1 then [(0, .flux x' y' z')] else []) :
    Pool Ask (List ℝ)) = s0
  let prog : Nat → Ask → Access (LRes (List ℝ)) := fun _ => F.prog
  have b0 := pool_begin prog (s := s0) (k := 0) (e := (0, .flux x y z)) (es := []) (out := []) (by subst hs0; rfl) (by subst hs0; rfl)
  generalize hs1 : s0.setWorker 0 ⟨[], some (0, prog 0 (.flux x y z)), []⟩ = s1 at b0
  obtain ⟨n0, a0⟩ := pool_advance prog (accelUpdate 0 F.R (hyp x y))
    (fun _ => .getAcc 0 fun i => (accelFind 1 F.Z z).seq fun j => .ret (.ok [sp.val i j (hyp x y) z])) 0 0 [] [] () m1 s1
    (by subst hs1; subst hs0; rfl) (by subst hs1; rw [← shape x y z hin]; simp [Pool.setWorker, prog]) (by subst hs1; subst hs0; exact e1)
  generalize hs2 : (s1.setMem 0 m1).setWorker 0 ⟨[], some (0, .getAcc 0 fun i => (accelFind 1 F.Z z).seq fun j =>
    .ret (.ok [sp.val i j (hyp x y) z])), []⟩ = s2 at a0
  have b1 := pool_begin prog (s := s2) (k := 1) (e := (0, .flux x' y' z')) (es := []) (out := []) (by subst hs2; subst hs1; subst hs0; rfl)
    (by subst hs2; subst hs1; subst hs0; rfl)
  generalize hs3 : s2.setWorker 1 ⟨[], some (0, prog 0 (.flux x' y' z')), []⟩ = s3 at b1
  obtain ⟨n1, a1⟩ := pool_finish prog (F.prog (.flux x' y' z')) 0 1 [] [] _ m2 s3
    (by subst hs3; subst hs2; subst hs1; subst hs0; rfl) (by subst hs3; simp [Pool.setWorker, prog]) (by subst hs3; subst hs2; exact e2)
  generalize hs4 : ({ (s3.setMem 0 m2).setWorker 1 ⟨[], none, [] ++ [.ok [sp.val (cellOf F.R (hyp x' y')) (cellOf F.Z z') (hyp x' y') z']]⟩
    with ended := LRes.fatal (.ok [sp.val (cellOf F.R (hyp x' y')) (cellOf F.Z z') (hyp x' y') z']) } : Pool Ask (List ℝ)) = s4 at a1
  obtain ⟨n2, a2⟩ := pool_finish prog (.getAcc 0 fun i => (accelFind 1 F.Z z).seq fun j => .ret (.ok [sp.val i j (hyp x y) z])) 0 0 [] []
    _ _ s4 (by subst hs4; rfl) (by subst hs4; subst hs3; subst hs2; rfl) (by subst hs4; exact e3)
  refine ⟨[0] ++ List.replicate n0 0 ++ [1] ++ List.replicate n1 1 ++ List.replicate n2 0, ?_⟩
  rw [poolRun_append, poolRun_append, poolRun_append, poolRun_append]
  show ((poolRun prog (poolRun prog (poolStep prog (poolRun prog (poolStep prog s0 0) _) 1) _) _).workers 0).out = _
  rw [b0, a0, b1, a1, a2]
  rfl

/-! ### tables -/

open Dist in
/-- A table that was initialised: GSL has accepted its grids, and the limits are their ends. -/
structure TableReady (t : NMom) : Prop where
  p : Ascending t.table.p
  xi : Ascending t.table.xi
  pmin : t.table.p.headD 0 = t.pmin
  pmax : t.table.p.getLastD 0 = t.pmax
  ximin : t.table.xi.headD 0 = t.ximin
  ximax : t.table.xi.getLastD 0 = t.ximax

theorem table_ready {t : Dist.Table} {l b : Bool} {m : Dist.NMom} (h : Dist.NMom.initialize t l b = .ok m) (flip : Bool) :
    TableReady (m.setFlip flip) := by
  unfold Dist.NMom.initialize at h
  split at h
  · next p0 p1 x0 x1 h1 h2 h3 h4 =>
    split_ifs at h with c1 c2 c3 c4
    obtain rfl := Dist.MRes.ok.inj h
    simp only [not_or, not_not, not_lt] at c3
    have hl : 2 ≤ Dist.gslLeast t.interp := by unfold Dist.gslLeast; split <;> omega
    exact ⟨⟨le_trans hl c3.1, c3.2.2.1⟩, ⟨le_trans hl c3.2.1, c3.2.2.2⟩, by simp [Dist.NMom.setFlip, List.headD_eq_head?_getD, h1],
      by simp [Dist.NMom.setFlip, List.getLastD_eq_getLast?, h2], by simp [Dist.NMom.setFlip, List.headD_eq_head?_getD, h3],
      by simp [Dist.NMom.setFlip, List.getLastD_eq_getLast?, h4]⟩
  · cases h

theorem run_table (val : Dist.Table → Nat → Nat → ℝ → ℝ → Dist.FV) {t : Dist.NMom} (ht : TableReady t) (q : ℝ × ℝ) (m : Scratch)
    (hm : m.acc 0 + 1 < t.table.p.length ∧ m.acc 1 + 1 < t.table.xi.length) :
    ∃ m', (tableProg val t q).run m =
        (.ok (t.eval (fun t p xi => val t (cellOf t.p p) (cellOf t.xi xi) p xi) q.1 q.2), m') ∧
      m'.acc 0 + 1 < t.table.p.length ∧ m'.acc 1 + 1 < t.table.xi.length := by
  have ask : ∀ y : ℝ, ¬ (q.1 < t.pmin ∨ q.1 > t.pmax) → ¬ (y < t.ximin ∨ y > t.ximax) →
      ∃ m', ((tableAsk val t.table q.1 y).seq fun v => .ret (.ok (Dist.unlog t.logarithmic v))).run m =
        (.ok (Dist.unlog t.logarithmic (val t.table (cellOf t.table.p q.1) (cellOf t.table.xi y) q.1 y)), m') ∧
      m'.acc 0 + 1 < t.table.p.length ∧ m'.acc 1 + 1 < t.table.xi.length := by
    intro y h1 h2
    have hm1 : (m.setAcc 0 (cellOf t.table.p q.1)).acc 1 + 1 < t.table.xi.length := hm.2
    refine ⟨(m.setAcc 0 (cellOf t.table.p q.1)).setAcc 1 (cellOf t.table.xi y), ?_, ?_, ?_⟩
    · unfold tableAsk
      rw [if_neg (by rw [ht.pmin, ht.pmax]; exact h1), if_neg (by rw [ht.ximin, ht.ximax]; exact h2), seq_seq,
        run_seq _ _ _ (run_find ht.p 0 q.1 m hm.1), seq_seq, run_seq _ _ _ (run_find ht.xi 1 y _ hm1)]
      rfl
    · simpa [Scratch.setAcc] using cellOf_lt ht.p q.1
    · simpa [Scratch.setAcc] using cellOf_lt ht.xi y
  unfold tableProg Dist.NMom.eval
  by_cases h1 : q.1 < t.pmin ∨ q.1 > t.pmax
  · rw [if_pos h1, if_pos h1]; exact ⟨m, rfl, hm⟩
  rw [if_neg h1, if_neg h1]
  by_cases hf : t.flip = true
  · rw [if_pos hf, if_pos hf]
    by_cases h2 : q.2 < -t.ximax ∨ q.2 > -t.ximin
    · rw [if_pos h2, if_pos h2]; exact ⟨m, rfl, hm⟩
    · rw [if_neg h2, if_neg h2]
      exact ask (-q.2) h1 fun h => h2 (by rcases h with h | h <;> [right; left] <;> linarith)
  · rw [if_neg hf, if_neg hf]
    by_cases h2 : q.2 < t.ximin ∨ q.2 > t.ximax
    · rw [if_pos h2, if_pos h2]; exact ⟨m, rfl, hm⟩
    · rw [if_neg h2, if_neg h2]
      exact ask q.2 h1 h2

theorem atMost_table (val : Dist.Table → Nat → Nat → ℝ → ℝ → Dist.FV) (t : Dist.NMom) (q : ℝ × ℝ) : AccessesAtMost 6 (tableProg val t q) := by
  have ask : ∀ y : ℝ, AccessesAtMost 6 ((tableAsk val t.table q.1 y).seq fun v => .ret (.ok (Dist.unlog t.logarithmic v))) := by
    intro y
    refine atMost_seq _ _ (n := 6) (n' := 0) ?_ fun _ => atMost_ret _ _
    unfold tableAsk
    split_ifs
    · exact atMost_ret _ _
    · exact atMost_ret _ _
    · exact atMost_seq _ _ (n := 3) (n' := 3) (atMost_find _ _ _) fun _ =>
        atMost_seq _ _ (n := 3) (n' := 0) (atMost_find _ _ _) fun _ => atMost_ret _ _
  unfold tableProg
  split_ifs <;> first | exact atMost_ret _ _ | exact ask _

/-- C122: tabulated distributions (any number of them, initialised with any tables; the momentum distributions of a numeric
distribution function and of its clones are such): every thread has its own, evaluates them in any order as often as it likes, and
gets the values of the interpolation at its points, whatever it and the other threads have evaluated before. -/
theorem C122_tables (val : Dist.Table → Nat → Nat → ℝ → ℝ → Dist.FV) (spline : Dist.Table → ℝ → ℝ → Dist.FV)
    (hs : ∀ t p xi, spline t p xi = val t (cellOf t.p p) (cellOf t.xi xi) p xi)
    (table : Nat → Dist.Table) (log flip : Nat → Bool) (init : Nat → Dist.NMom)
    (hinit : ∀ o, Dist.NMom.initialize (table o) (log o) false = .ok (init o))
    (owner : Nat → Nat) (tasks : Nat → List (Nat × ℝ × ℝ)) (hown : ∀ k, ∀ e ∈ tasks k, owner e.1 = k) (mem : Nat → Scratch)
    (hm : ∀ o, NewMem (mem o)) (sched : List Nat) (k : Nat) :
    let obj := fun o => (init o).setFlip (flip o)
    let out := ((poolRun (fun o => tableProg val (obj o)) (poolStart mem tasks) sched).workers k).out
    let right := (tasks k).map fun e => .ok ((obj e.1).eval spline e.2.1 e.2.2)
    out <+: right ∧ (8 * (tasks k).length ≤ sched.count k → out = right) := by
  intro obj out right
  obtain rfl : spline = fun t p xi => val t (cellOf t.p p) (cellOf t.xi xi) p xi := by
    funext t p xi; exact hs t p xi
  have hr : ∀ o, TableReady (obj o) := fun o => table_ready (hinit o) (flip o)
  have he : Evaluable (fun o => tableProg val (obj o))
      (fun o q => .ok ((obj o).eval (fun t p xi => val t (cellOf t.p p) (cellOf t.xi xi) p xi) q.1 q.2))
      (fun o m => m.acc 0 + 1 < (obj o).table.p.length ∧ m.acc 1 + 1 < (obj o).table.xi.length) 6 :=
    ⟨fun o q m hv => run_table val (hr o) q m hv, fun o q => atMost_table val _ q⟩
  obtain ⟨h1, h2⟩ := pool_right he hown (mem := mem) (fun o => by
    have h1 := (hr o).p.two
    have h2 := (hr o).xi.two
    exact ⟨by rw [(hm o).1]; omega, by rw [(hm o).2]; omega⟩) sched k
  exact ⟨h1, fun hc => h2 (fun _ _ _ => rfl) (by omega)⟩

/-- The linear interpolation of GSL is of this kind. -/
example : ∃ val : Dist.Table → Nat → Nat → ℝ → ℝ → Dist.FV,
    ∀ t p xi, Dist.linearSpline t p xi = val t (cellOf t.p p) (cellOf t.xi xi) p xi :=
  ⟨fun t i j x y =>
    match t.p[i]?, t.p[i + 1]?, t.xi[j]?, t.xi[j + 1]?, t.f[j * t.p.length + i]?, t.f[j * t.p.length + (i + 1)]?,
      t.f[(j + 1) * t.p.length + i]?, t.f[(j + 1) * t.p.length + (i + 1)]? with
    | some x0, some x1, some y0, some y1, some z00, some z10, some z01, some z11 =>
      let a := (x - x0) / (x1 - x0)
      let b := (y - y0) / (y1 - y0)
      ((((Dist.FV.times ((1 - a) * (1 - b)) z00).plus (Dist.FV.times (a * (1 - b)) z10)).plus (Dist.FV.times ((1 - a) * b) z01)).plus
        (Dist.FV.times (a * b) z11))
    | _, _, _, _, _, _, _, _ => .nan, fun _ _ _ => rfl⟩

theorem made_clones {name desc : String} {R Z Br Bphi Bz : List ℝ} {Psi : Option (List ℝ)} {axis : Pt} {sep wall : Option (List Pt)}
    {f : NField} (h : nInit name desc R Z Br Bphi Bz Psi axis sep wall = .ok f) : ∃ c, f.clone = .ok c := by
  unfold nInit finish at h
  split_ifs at h
  split at h
  · cases h
  · cases h
  · next mx mn e =>
    obtain rfl := Res.ok.inj h
    have e' : findMaxRadius axis (radiusDom (some (sep.getD [])) (some (wall.getD []))) = .ok mx mn := e
    unfold NField.clone nInit finish
    rw [if_neg (by simp), e']
    exact ⟨_, rfl⟩

/-- A field with a grid of four by four nodes that was made and can be cloned, and an interpolation (the sum of the numbers of the
intervals) with which a shared field gives a wrong flux: 4 instead of 2. -/
example : ∃ (f c : NField) (g : NGrid) (m : Scratch) (cells : List ℝ → List ℝ → List ℝ → CellSpl),
    f.initInterpolation (fun R Z V => (cells R Z V).spl R Z) = .ok g ∧ f.clone = .ok c ∧ ClonedFrom f c ∧ NewMem m ∧
    askRight g (.flux (3 / 2) 0 (3 / 2)) = .ok [2] ∧ askRight g (.flux (7 / 2) 0 (3 / 2)) = .ok [4] ∧
    ∃ sched : List Nat, ((poolRun (fun _ => (f.cells cells).prog)
      (poolStart (fun _ => m) fun k => if k = 0 then [(0, .flux (3 / 2) 0 (3 / 2))] else if k = 1 then [(0, .flux (7 / 2) 0 (3 / 2))] else [])
      sched).workers 0).out = [.ok [4]] := by
  obtain ⟨f, hf, e1, e2, e3, e4, e5, e6⟩ := sampleField_made [1, 2, 3, 4]
  obtain ⟨c, hc⟩ := made_clones hf
  let cells : List ℝ → List ℝ → List ℝ → CellSpl := fun _ _ _ => ⟨fun i j _ _ => i + j, fun _ _ _ _ => 0, fun _ _ _ _ => 0⟩
  let m : Scratch := ⟨fun _ => 0, fun _ _ => 0⟩
  have hm : NewMem m := ⟨rfl, rfl⟩
  obtain ⟨g, hg⟩ := (C119_outcomes (fun R Z V => (cells R Z V).spl R Z) f).1.2
    ⟨⟨by rw [e1]; simp, by rw [e2]; simp, by rw [e1]; norm_num, by rw [e2]; norm_num⟩,
      ⟨by rw [e1, e2, e3]; simp, by rw [e1, e2, e4]; simp, by rw [e1, e2, e5]; simp, by intro p hp; rw [e6] at hp; cases hp; rw [e1, e2]; simp⟩⟩
  have h1 : hyp (3 / 2) 0 = 3 / 2 := by unfold hyp; rw [show (3 / 2 : ℝ) ^ 2 + 0 ^ 2 = (3 / 2) ^ 2 by ring]; exact Real.sqrt_sq (by norm_num)
  have h2 : hyp (7 / 2) 0 = 7 / 2 := by unfold hyp; rw [show (7 / 2 : ℝ) ^ 2 + 0 ^ 2 = (7 / 2) ^ 2 by ring]; exact Real.sqrt_sq (by norm_num)
  have c1 : cellOf [1, 2, 3, 4] (3 / 2) = 0 := by unfold cellOf; norm_num
  have c2 : cellOf [1, 2, 3, 4] (7 / 2) = 2 := by unfold cellOf; norm_num
  have c3 : cellOf [-1, 0, 1, 2] (3 / 2) = 2 := by unfold cellOf; norm_num
  have hgrid : g = (f.cells cells).grid := (made_ready cells hg).2
  have v1 : askRight g (.flux (3 / 2) 0 (3 / 2)) = .ok [2] := by
    rw [hgrid]
    unfold askRight NGrid.fluxG NGrid.flux NGrid.ask CField.grid NField.cells
    simp [e6, must, LRes.bind, CellSpl.spl, h1, c1, c3, e1, e2, cells]
    norm_num
  have v2 : askRight g (.flux (7 / 2) 0 (3 / 2)) = .ok [4] := by
    rw [hgrid]
    unfold askRight NGrid.fluxG NGrid.flux NGrid.ask CField.grid NField.cells
    simp [e6, must, LRes.bind, CellSpl.spl, h2, c2, c3, e1, e2, cells]
    norm_num
  refine ⟨f, c, g, m, cells, hg, hc, .clone .self hc, hm, v1, v2, ?_⟩
  obtain ⟨sched, hs⟩ := C122_shared_cell cells f g hg _ e6 m hm (3 / 2) 0 (3 / 2) (7 / 2) 0 (3 / 2) ⟨_, v1⟩ ⟨_, v2⟩
  refine ⟨sched, hs.trans ?_⟩
  rw [h2, e1, e2, c2, c3]
  norm_num [cells]

/-- Results that a process does not survive. -/
def EndsProcess {β : Type} (v : LRes β) : Prop := v = .aborts ∨ v = .ub

/-- While it runs no thread has such a result; when it has ended one thread has one, as its last. -/
def EndInv {C β : Type} (s : Pool C β) : Prop :=
  (s.ended = false ∧ ∀ k, ∀ v ∈ (s.workers k).out, ¬ EndsProcess v) ∨
  (s.ended = true ∧ ∃ k pre v, (s.workers k).out = pre ++ [v] ∧ EndsProcess v ∧ (∀ w ∈ pre, ¬ EndsProcess w) ∧
    ∀ j, j ≠ k → ∀ w ∈ (s.workers j).out, ¬ EndsProcess w)

theorem endInv_step {C β : Type} {prog : Nat → C → Access (LRes β)} {s : Pool C β} (h : EndInv s) (k : Nat) : EndInv (poolStep prog s k) := by
  unfold poolStep
  by_cases he : s.ended = true
  · rw [if_pos he]; exact h
  rw [if_neg he]
  have hf : s.ended = false := by simpa using he
  rcases h with ⟨-, h⟩ | ⟨h, -⟩
  swap
  · exact absurd h he
  have keep : ∀ w : Worker C β, w.out = (s.workers k).out → ∀ j, ∀ v ∈ ((if j = k then w else s.workers j) : Worker C β).out, ¬ EndsProcess v := by
    intro w hw j v hv
    by_cases hj : j = k
    · rw [if_pos hj, hw] at hv; exact h k v hv
    · rw [if_neg hj] at hv; exact h j v hv
  split
  · split
    · exact Or.inl ⟨hf, h⟩
    · exact Or.inl ⟨hf, keep _ rfl⟩
  · rename_i v hc
    by_cases hv : EndsProcess v
    · refine Or.inr ⟨?_, k, (s.workers k).out, v, ?_, hv, h k, ?_⟩
      · rcases hv with rfl | rfl <;> rfl
      · simp [Pool.setWorker]
      · intro j hj w hw
        simp only [Pool.setWorker, if_neg hj] at hw
        exact h j w hw
    · refine Or.inl ⟨?_, ?_⟩
      · cases v <;> first | rfl | exact absurd (Or.inl rfl) hv | exact absurd (Or.inr rfl) hv
      · intro j w hw
        by_cases hj : j = k
        · simp only [Pool.setWorker, if_pos hj, List.mem_append, List.mem_singleton] at hw
          rcases hw with hw | rfl
          · exact h k w hw
          · exact hv
        · simp only [Pool.setWorker, if_neg hj] at hw
          exact h j w hw
  · exact Or.inl ⟨hf, keep _ rfl⟩

theorem endInv_run {C β : Type} {prog : Nat → C → Access (LRes β)} (sched : List Nat) : ∀ {s : Pool C β}, EndInv s → EndInv (poolRun prog s sched) := by
  induction sched with
  | nil => intro s h; exact h
  | cons k ks ih => intro s h; exact ih (endInv_step h k)

theorem poolRun_ended {C β : Type} {prog : Nat → C → Access (LRes β)} (sched : List Nat) {s : Pool C β} (h : s.ended = true) :
    poolRun prog s sched = s := by
  induction sched with
  | nil => rfl
  | cons k ks ih =>
    show poolRun prog (poolStep prog s k) ks = s
    have : poolStep prog s k = s := by unfold poolStep; rw [if_pos h]
    rw [this, ih]

/-- C122: an evaluation that aborts, or whose behaviour is undefined, is the last thing that happens in any thread: no thread gets another
result, and no other evaluation has ended the process. -/
theorem C122_end {C β : Type} (prog : Nat → C → Access (LRes β)) (mem : Nat → Scratch) (tasks : Nat → List (Nat × C)) (sched : List Nat)
    (k : Nat) (v : LRes β) (hv : v ∈ ((poolRun prog (poolStart mem tasks) sched).workers k).out) (hf : v = .aborts ∨ v = .ub) :
    (∀ more, poolRun prog (poolStart mem tasks) (sched ++ more) = poolRun prog (poolStart mem tasks) sched) ∧
    ((poolRun prog (poolStart mem tasks) sched).workers k).out.getLast? = some v ∧
    ∀ j, j ≠ k → ∀ w ∈ ((poolRun prog (poolStart mem tasks) sched).workers j).out, w ≠ .aborts ∧ w ≠ .ub := by
  have h : EndInv (poolRun prog (poolStart mem tasks) sched) :=
    endInv_run sched (Or.inl ⟨rfl, fun k v hv => by simp [poolStart] at hv⟩)
  have happ := fun more => poolRun_append prog (poolStart mem tasks) sched more
  generalize poolRun prog (poolStart mem tasks) sched = s at *
  rcases h with ⟨-, h⟩ | ⟨he, k', pre, w, h1, h2, h3, h4⟩
  · exact absurd hf (h k v hv)
  · have hk : k = k' := by
      by_contra hne
      exact h4 k hne v hv hf
    subst hk
    refine ⟨fun more => by rw [happ, poolRun_ended _ he], ?_, fun j hj w hw => ?_⟩
    · rw [h1, List.mem_append, List.mem_singleton] at hv
      rcases hv with hv | rfl
      · exact absurd hf (h3 v hv)
      · rw [h1]; simp
    · have := h4 j hj w hw
      exact ⟨fun e => this (Or.inl e), fun e => this (Or.inr e)⟩

end

end Softlib
