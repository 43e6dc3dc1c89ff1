/-
Property C89: magnetic equilibria in the format of LUKE.
-/
import Verif.Magnetic.LukeModel
import Verif.Magnetic.NumericFileProps
import Verif.Magnetic.DomainProps
import Mathlib.Tactic.Linarith
import Mathlib.Tactic.FieldSimp
import Mathlib.Tactic.Ring
import Mathlib.Tactic.LinearCombination
import Mathlib.Tactic.IntervalCases

namespace Softlib

open Softlib.Magnetic

noncomputable section

/-! ### what a file contains -/

/-- The variable is a table with `a` rows and `b` columns and these elements. -/
def IsTable (f : FData) (n : String) (a b : Nat) (v : Nat → Nat → ℝ) : Prop :=
  ∃ d, (f.get n = some (.arr [a, b] d) ∨ (a = 1 ∧ f.get n = some (.arr [b] d))) ∧ d.length = a * b ∧
    ∀ i j, i < a → j < b → d[i * b + j]? = some (v i j)

/-- The variable is this list: a vector, a row or a column. -/
def IsVec (f : FData) (n : String) (l : List ℝ) : Prop :=
  f.get n = some (.arr [l.length] l) ∨ f.get n = some (.arr [1, l.length] l) ∨
    (l ≠ [] ∧ f.get n = some (.arr [l.length, 1] l))

/-- The variable is this number. -/
def IsNum (f : FData) (n : String) (x : ℝ) : Prop :=
  f.get n = some (.arr [1] [x]) ∨ f.get n = some (.arr [1, 1] [x])

/-- The contents of an equilibrium; first index of the tables on the (psi, theta) grid: the
angle, of `psin`: the vertical position. -/
structure LukeData where
  id : String
  rp : ℝ
  zp : ℝ
  x : List ℝ
  y : List ℝ
  psin : Nat → Nat → ℝ
  psia : ℝ
  psi : List ℝ
  theta : List ℝ
  bx : Nat → Nat → ℝ
  bz : Nat → Nat → ℝ
  bphi : Nat → Nat → ℝ
  ptx : Nat → Nat → ℝ
  pty : Nat → Nat → ℝ

/-- The file contains this equilibrium. -/
structure LukeFile (f : FData) (d : LukeData) : Prop where
  id : f.get "equil/id" = some (.str d.id)
  rp : IsNum f "equil/Rp" d.rp
  zp : IsNum f "equil/Zp" d.zp
  x : IsVec f "equil/eqdsk/x" d.x
  y : IsVec f "equil/eqdsk/y" d.y
  psin : IsTable f "equil/eqdsk/xypsin" d.y.length d.x.length d.psin
  psia : IsNum f "equil/eqdsk/psia" d.psia
  psi : IsVec f "equil/psi_apRp" d.psi
  theta : IsVec f "equil/theta" d.theta
  bx : IsTable f "equil/ptBx" d.theta.length d.psi.length d.bx
  bz : IsTable f "equil/ptBy" d.theta.length d.psi.length d.bz
  bphi : IsTable f "equil/ptBPHI" d.theta.length d.psi.length d.bphi
  ptx : IsTable f "equil/ptx" d.theta.length d.psi.length d.ptx
  pty : IsTable f "equil/pty" d.theta.length d.psi.length d.pty

/-- Flux divided by its value on the last surface. -/
def LukeData.psig (d : LukeData) : List ℝ := d.psi.map fun p => |p / d.psi.getLastD 0|

/-- What interpolation needs. -/
structure LukeData.Good (d : LukeData) : Prop where
  y : d.y ≠ []
  psi : 2 ≤ d.psi.length
  theta : 2 ≤ d.theta.length
  last : d.psi.getLastD 0 ≠ 0
  psiInc : d.psig.Pairwise (· < ·)
  thetaInc : d.theta.Pairwise (· < ·)

/-- `z` is the bilinear interpolation of the table `v` (first index: `ys`) at (x, y), from the
cell of the table in which the point lies, or the nearest one. -/
def Interpolates (xs ys : List ℝ) (v : Nat → Nat → ℝ) (x y z : ℝ) : Prop :=
  ∃ (k l : Nat) (x0 x1 y0 y1 : ℝ), xs[k]? = some x0 ∧ xs[k + 1]? = some x1 ∧ ys[l]? = some y0 ∧ ys[l + 1]? = some y1 ∧
    (k = 0 ∨ x0 ≤ x) ∧ (k + 2 = xs.length ∨ x < x1) ∧ (l = 0 ∨ y0 ≤ y) ∧ (l + 2 = ys.length ∨ y < y1) ∧
    (x1 - x0) * (y1 - y0) * z = (x1 - x) * (y1 - y) * v l k + (x - x0) * (y1 - y) * v l (k + 1) +
      (x1 - x) * (y - y0) * v (l + 1) k + (x - x0) * (y - y0) * v (l + 1) (k + 1)

/-- The angle of the point (x, y), from 0 to 2π. -/
def PolarAngle (x y θ : ℝ) : Prop :=
  0 ≤ θ ∧ θ < 2 * Real.pi ∧ x = Real.sqrt (x ^ 2 + y ^ 2) * Real.cos θ ∧ y = Real.sqrt (x ^ 2 + y ^ 2) * Real.sin θ

/-! ### reading -/

theorem luke_num {f : FData} {n : String} {x : ℝ} (h : IsNum f n x) : f.scalar n = .ok x := by
  unfold FData.scalar FData.doubles
  rcases h with h | h <;> rw [h] <;> simp [must, check, inside, LRes.bind, at2, rowsOf]

theorem luke_vec {f : FData} {n : String} {l : List ℝ} (h : IsVec f n l) : f.vector n = .ok l := by
  unfold FData.vector FData.doubles
  rcases h with h | h | ⟨hl, h⟩
  · rw [h]; simp [must, check, LRes.bind]
  · rw [h]; simp [must, check, LRes.bind, rowsOf]
  · rw [h]
    have h0 : l.length ≠ 0 := by simpa using hl
    simp only [must, check, LRes.bind, or_true, decide_true, if_true]
    rw [if_neg h0]
    congr 1
    exact flatten_rows 1 l.length l (by omega)

theorem luke_table {f : FData} {n : String} {a b : Nat} {v : Nat → Nat → ℝ} (h : IsTable f n a b v) :
    ∃ rows, f.table n a b = .ok rows ∧ ∀ i j, i < a → j < b → at2 rows i j = some (v i j) := by
  obtain ⟨d, hd, hl, hv⟩ := h
  unfold FData.table FData.doubles
  rcases hd with h | ⟨ha, h⟩
  · refine ⟨rowsOf a b d, ?_, ?_⟩
    · rw [h]; simp [must, check, LRes.bind]
    · intro i j hi hj
      rw [at2_rowsOf hi hj, hv i j hi hj]
  · subst ha
    refine ⟨[d], ?_, ?_⟩
    · rw [h]; simp [must, check, LRes.bind]
    · intro i j hi hj
      have := hv i j hi hj
      obtain rfl : i = 0 := by omega
      simpa [at2] using this

/-! ### interpolation -/

theorem takeWhile_spec (p : ℝ → Bool) : ∀ l : List ℝ, (∀ i a, l[i]? = some a → i < (l.takeWhile p).length → p a = true) ∧
    (∀ a, l[(l.takeWhile p).length]? = some a → p a = false)
  | [] => by simp
  | b :: l => by
    obtain ⟨h1, h2⟩ := takeWhile_spec p l
    by_cases hb : p b = true
    · rw [List.takeWhile_cons_of_pos hb]
      refine ⟨?_, ?_⟩
      · intro i a hi hlt
        cases i with
        | zero => simp at hi; rw [← hi]; exact hb
        | succ i => simp at hi hlt; exact h1 i a hi hlt
      · intro a ha
        simp at ha
        exact h2 a ha
    · rw [List.takeWhile_cons_of_neg hb]
      refine ⟨by simp, ?_⟩
      intro a ha
      simp at ha
      rw [← ha]
      simpa using hb

theorem cellOf_spec (xs : List ℝ) (x : ℝ) (h : 2 ≤ xs.length) :
    ∃ x0 x1, xs[cellOf xs x]? = some x0 ∧ xs[cellOf xs x + 1]? = some x1 ∧ (cellOf xs x = 0 ∨ x0 ≤ x) ∧
      (cellOf xs x + 2 = xs.length ∨ x < x1) := by
  have hmid : ∀ k, k + 2 < xs.length → ((xs.drop 1).dropLast)[k]? = xs[k + 1]? := by
    intro k hk
    rw [List.getElem?_dropLast, if_pos (by rw [List.length_drop]; omega), List.getElem?_drop, Nat.add_comm]
  have hlen : ((xs.drop 1).dropLast).length = xs.length - 2 := by simp; omega
  unfold cellOf
  generalize hm : (xs.drop 1).dropLast = mid at hmid hlen
  obtain ⟨t1, t2⟩ := takeWhile_spec (fun a => decide (a ≤ x)) mid
  have hk : (mid.takeWhile fun a => decide (a ≤ x)).length ≤ mid.length := (List.takeWhile_sublist _).length_le
  generalize hkk : (mid.takeWhile fun a => decide (a ≤ x)).length = k at *
  refine ⟨xs[k]'(by omega), xs[k + 1]'(by omega), List.getElem?_eq_getElem _, List.getElem?_eq_getElem _, ?_, ?_⟩
  · rcases Nat.eq_zero_or_pos k with h0 | h0
    · exact .inl h0
    right
    refine of_decide_eq_true (t1 (k - 1) _ ?_ (by omega))
    rw [hmid (k - 1) (by omega), show k - 1 + 1 = k by omega]
    exact List.getElem?_eq_getElem _
  · rcases Nat.lt_or_ge (k + 2) xs.length with h0 | h0
    · right
      refine not_le.1 (of_decide_eq_false (t2 _ ?_))
      rw [hmid k h0]
      exact List.getElem?_eq_getElem _
    · left; omega

theorem increasing_lt {xs : List ℝ} (h : xs.Pairwise (· < ·)) {i j : Nat} {a b : ℝ} (hi : xs[i]? = some a) (hj : xs[j]? = some b)
    (hij : i < j) : a < b := by
  obtain ⟨h1, e1⟩ := List.getElem?_eq_some_iff.1 hi
  obtain ⟨h2, e2⟩ := List.getElem?_eq_some_iff.1 hj
  rw [← e1, ← e2]
  exact List.pairwise_iff_getElem.1 h i j h1 h2 hij

theorem bilinear_spec {xs ys : List ℝ} {rows : List (List ℝ)} {v : Nat → Nat → ℝ} (hx : 2 ≤ xs.length) (hy : 2 ≤ ys.length)
    (hxi : xs.Pairwise (· < ·)) (hyi : ys.Pairwise (· < ·))
    (hv : ∀ i j, i < ys.length → j < xs.length → at2 rows i j = some (v i j)) (x y : ℝ) :
    ∃ z, bilinear xs ys rows x y = some z ∧ Interpolates xs ys v x y z := by
  obtain ⟨x0, x1, hx0, hx1, hxl, hxr⟩ := cellOf_spec xs x hx
  obtain ⟨y0, y1, hy0, hy1, hyl, hyr⟩ := cellOf_spec ys y hy
  unfold bilinear
  generalize cellOf xs x = k at *
  generalize cellOf ys y = l at *
  have kb : k + 1 < xs.length := (List.getElem?_eq_some_iff.1 hx1).1
  have lb : l + 1 < ys.length := (List.getElem?_eq_some_iff.1 hy1).1
  simp only [hx0, hx1, hy0, hy1, hv l k (by omega) (by omega), hv l (k + 1) (by omega) kb, hv (l + 1) k lb (by omega),
    hv (l + 1) (k + 1) lb kb, Option.bind_some]
  refine ⟨_, rfl, k, l, x0, x1, y0, y1, hx0, hx1, hy0, hy1, hxl, hxr, hyl, hyr, ?_⟩
  have d1 : x1 - x0 ≠ 0 := by have := increasing_lt hxi hx0 hx1 (by omega); intro h; linarith
  have d2 : y1 - y0 ≠ 0 := by have := increasing_lt hyi hy0 hy1 (by omega); intro h; linarith
  field_simp
  ring

theorem lukeAngle_spec (x y : ℝ) : PolarAngle x y (lukeAngle x y) := by
  have hn : ‖(⟨x, y⟩ : ℂ)‖ = Real.sqrt (x ^ 2 + y ^ 2) := by
    rw [Complex.norm_eq_sqrt_sq_add_sq]
  have hc := Complex.norm_mul_cos_arg (⟨x, y⟩ : ℂ)
  have hs := Complex.norm_mul_sin_arg (⟨x, y⟩ : ℂ)
  rw [hn] at hc hs
  simp only at hc hs
  have hlo := Complex.neg_pi_lt_arg (⟨x, y⟩ : ℂ)
  have hhi := Complex.arg_le_pi (⟨x, y⟩ : ℂ)
  have hpi := Real.pi_pos
  unfold lukeAngle PolarAngle
  generalize Complex.arg ⟨x, y⟩ = a at *
  simp only
  split
  · refine ⟨by linarith, by linarith, ?_, ?_⟩
    · rw [add_comm (2 * Real.pi) a, Real.cos_add_two_pi, hc]
    · rw [add_comm (2 * Real.pi) a, Real.sin_add_two_pi, hs]
  · exact ⟨by linarith, by linarith, hc.symm, hs.symm⟩

/-- The angle is unique away from the axis. -/
theorem polarAngle_unique {x y θ θ' : ℝ} (h0 : x ≠ 0 ∨ y ≠ 0) (h : PolarAngle x y θ) (h' : PolarAngle x y θ') : θ = θ' := by
  obtain ⟨a1, a2, a3, a4⟩ := h
  obtain ⟨b1, b2, b3, b4⟩ := h'
  have hr : Real.sqrt (x ^ 2 + y ^ 2) ≠ 0 := by
    rw [Real.sqrt_ne_zero']
    rcases h0 with h0 | h0 <;> positivity
  have hc : Real.cos θ = Real.cos θ' := mul_left_cancel₀ hr (a3.symm.trans b3)
  have hs : Real.sin θ = Real.sin θ' := mul_left_cancel₀ hr (a4.symm.trans b4)
  have : (θ : Real.Angle) = (θ' : Real.Angle) := Real.Angle.cos_sin_inj hc hs
  rw [Real.Angle.angle_eq_iff_two_pi_dvd_sub] at this
  obtain ⟨k, hk⟩ := this
  have hpi := Real.pi_pos
  have h1 : (k : ℝ) < 1 := by
    by_contra hge
    have : 2 * Real.pi * (1 : ℝ) ≤ 2 * Real.pi * k := mul_le_mul_of_nonneg_left (not_lt.1 hge) (by linarith)
    linarith
  have h2 : (-1 : ℝ) < k := by
    by_contra hge
    have : 2 * Real.pi * (k : ℝ) ≤ 2 * Real.pi * (-1) := mul_le_mul_of_nonneg_left (not_lt.1 hge) (by linarith)
    linarith
  have h1' : k < 1 := by exact_mod_cast h1
  have h2' : -1 < k := by exact_mod_cast h2
  obtain rfl : k = 0 := by omega
  simp at hk
  linarith

/-- Values on the grid, row by row. -/
theorem grid_values (nx ny : Nat) (F : Nat → Nat → Option ℝ) (g : Nat → Nat → ℝ)
    (h : ∀ j i, j < ny → i < nx → F j i = some (g j i)) :
    ∃ l, ((List.range ny).mapM fun j => (List.range nx).mapM fun i => F j i).map List.flatten = some l ∧ l.length = ny * nx ∧
      ∀ j i, j < ny → i < nx → l[i + j * nx]? = some (g j i) := by
  rw [mapM_some (g := fun j => (List.range nx).map fun i => g j i)]
  · refine ⟨_, rfl, by simp [List.length_flatten, Function.comp_def], ?_⟩
    intro j i hj hi
    have e : ((List.range ny).map fun j => (List.range nx).map fun i => g j i).flatten =
        (List.range (ny * nx)).map fun k : Nat => g (k / nx) (k % nx) := by
      clear h hj
      induction ny with
      | zero => simp
      | succ n ih =>
        rw [List.range_succ, List.map_append, List.flatten_append, ih, Nat.succ_mul, List.range_add, List.map_append]
        congr 1
        simp only [List.map_cons, List.map_nil, List.flatten_cons, List.flatten_nil, List.append_nil, List.map_map]
        apply List.map_congr_left
        intro a ha
        rw [List.mem_range] at ha
        simp only [Function.comp]
        rw [Nat.mul_comm n nx, Nat.mul_add_div (by omega), Nat.div_eq_of_lt ha, Nat.mul_add_mod, Nat.mod_eq_of_lt ha, Nat.add_zero]
    rw [e, List.getElem?_map, List.getElem?_range, Option.map_some, Nat.add_mul_mod_self_right, Nat.mod_eq_of_lt hi,
      Nat.add_mul_div_right _ _ (by omega), Nat.div_eq_of_lt hi, Nat.zero_add]
    calc i + j * nx < nx + j * nx := by omega
      _ = (j + 1) * nx := by ring
      _ ≤ ny * nx := Nat.mul_le_mul_right _ hj
  · intro j hj
    rw [List.mem_range] at hj
    rw [mapM_some (g := fun i => g j i)]
    intro i hi
    exact h j i hj (List.mem_range.1 hi)

theorem lukeField_spec {xs ys psig tsig : List ℝ} {psinR rows : List (List ℝ)} {psin v : Nat → Nat → ℝ} (hx : 2 ≤ psig.length) (hy : 2 ≤ tsig.length)
    (hxi : psig.Pairwise (· < ·)) (hyi : tsig.Pairwise (· < ·))
    (hv : ∀ i j, i < tsig.length → j < psig.length → at2 rows i j = some (v i j))
    (hp : ∀ i j, i < ys.length → j < xs.length → at2 psinR i j = some (psin i j)) :
    ∃ l, lukeField xs ys psinR psig tsig rows = some l ∧ l.length = ys.length * xs.length ∧
      ∀ (i j : Nat) (x y : ℝ), xs[i]? = some x → ys[j]? = some y → ∃ z, l[i + j * xs.length]? = some z ∧
        Interpolates psig tsig v |psin j i| (lukeAngle x y) z := by
  have key : ∀ j i, j < ys.length → i < xs.length →
      ((xs[i]?).bind fun x => (ys[j]?).bind fun y => (at2 psinR j i).bind fun p =>
        bilinear psig tsig rows |p| (lukeAngle x y)) =
      some ((bilinear psig tsig rows |psin j i| (lukeAngle (xs.getD i 0) (ys.getD j 0))).getD 0) := by
    intro j i hj hi
    rw [List.getElem?_eq_getElem hi, List.getElem?_eq_getElem hj, hp j i hj hi]
    simp only [Option.bind_some, List.getD_eq_getElem?_getD, List.getElem?_eq_getElem hi, List.getElem?_eq_getElem hj, Option.getD_some]
    obtain ⟨z, hz, _⟩ := bilinear_spec hx hy hxi hyi hv |psin j i| (lukeAngle xs[i] ys[j])
    rw [hz]; rfl
  obtain ⟨l, hl, hlen, hg⟩ := grid_values xs.length ys.length _ _ key
  refine ⟨l, hl, hlen, ?_⟩
  intro i j x y hxv hyv
  obtain ⟨hi, ei⟩ := List.getElem?_eq_some_iff.1 hxv
  obtain ⟨hj, ej⟩ := List.getElem?_eq_some_iff.1 hyv
  obtain ⟨z, hz, hI⟩ := bilinear_spec hx hy hxi hyi hv |psin j i| (lukeAngle x y)
  refine ⟨z, ?_, hI⟩
  rw [hg j i hj hi]
  simp only [List.getD_eq_getElem?_getD, hxv, hyv, Option.getD_some, hz]

theorem lukeSep_spec {nt np : Nat} {axis : Pt} {rx ry : List (List ℝ)} {vx vy : Nat → Nat → ℝ} (hn : 0 < np)
    (hx : ∀ i j, i < nt → j < np → at2 rx i j = some (vx i j)) (hy : ∀ i j, i < nt → j < np → at2 ry i j = some (vy i j)) :
    lukeSep nt np axis rx ry = some ((List.range nt).map fun i : Nat => (⟨vx i (np - 1) + axis.r, vy i (np - 1) + axis.z⟩ : Pt)) := by
  unfold lukeSep
  apply mapM_some
  intro i hi
  rw [List.mem_range] at hi
  rw [hx i _ hi (by omega), hy i _ hi (by omega)]
  rfl

/-! ### C89 -/

/-- The last flux surface, in global coordinates. -/
def LukeData.sep (d : LukeData) : List Pt :=
  (List.range d.theta.length).map fun l : Nat => (⟨d.ptx l (d.psi.length - 1) + d.rp, d.pty l (d.psi.length - 1) + d.zp⟩ : Pt)

/-- The wall file, if there is one, contains this contour: in two rows, or in two columns (for two
points only in rows). -/
def IsWall : Option FData → Option (List Pt) → Prop
  | none, none => True
  | some w, some c =>
    IsTable w "wall" 2 c.length (fun i j => if i = 0 then (c.getD j ⟨0, 0⟩).r else (c.getD j ⟨0, 0⟩).z) ∨
      (c ≠ [] ∧ c.length ≠ 2 ∧ IsTable w "wall" c.length 2 (fun i j => if j = 0 then (c.getD i ⟨0, 0⟩).r else (c.getD i ⟨0, 0⟩).z))
  | _, _ => False

theorem points_of_range (c : List Pt) : ((List.range c.length).map fun i : Nat => (⟨(c.getD i ⟨0, 0⟩).r, (c.getD i ⟨0, 0⟩).z⟩ : Pt)) = c := by
  apply List.ext_getElem?
  intro i
  rw [List.getElem?_map]
  by_cases hi : i < c.length
  · rw [List.getElem?_range hi, List.getElem?_eq_getElem hi, Option.map_some, List.getD_eq_getElem?_getD, List.getElem?_eq_getElem hi]
    rfl
  · rw [List.getElem?_eq_none (by simpa using hi), List.getElem?_eq_none (by omega)]
    rfl

theorem luke_doubles {f : FData} {n : String} {a b : Nat} {v : Nat → Nat → ℝ} (h : IsTable f n a b v) :
    ∃ rows, f.doubles n = some (a, b, rows) ∧ ∀ i j, i < a → j < b → at2 rows i j = some (v i j) := by
  obtain ⟨rows, h1, h2⟩ := luke_table h
  unfold FData.table at h1
  cases hd : f.doubles n with
  | none => rw [hd] at h1; simp [must, LRes.bind] at h1
  | some m =>
    obtain ⟨a', b', r⟩ := m
    rw [hd] at h1
    simp only [must, LRes.bind, check] at h1
    by_cases hc : a' = a ∧ b' = b
    · rw [if_pos (by simpa using hc)] at h1
      simp only [LRes.ok.injEq] at h1
      obtain ⟨rfl, rfl⟩ := hc
      exact ⟨rows, by rw [h1], h2⟩
    · rw [if_neg (by simpa using hc)] at h1
      simp at h1

theorem luke_wall {w : Option FData} {c : Option (List Pt)} (h : IsWall w c) : lukeWall w = .ok c := by
  cases w with
  | none =>
    cases c with
    | none => rfl
    | some c => exact h.elim
  | some w =>
    cases c with
    | none => exact h.elim
    | some c =>
      rcases h with h | ⟨hne, h2, h⟩
      · obtain ⟨rows, h1, hv⟩ := luke_doubles h
        unfold lukeWall
        simp only [h1, must, LRes.bind, if_true]
        rw [mapM_some (g := fun i : Nat => (⟨(c.getD i ⟨0, 0⟩).r, (c.getD i ⟨0, 0⟩).z⟩ : Pt)), points_of_range]
        · rfl
        · intro i hi
          rw [List.mem_range] at hi
          rw [hv 0 i (by omega) hi, hv 1 i (by omega) hi]
          rfl
      · obtain ⟨rows, h1, hv⟩ := luke_doubles h
        unfold lukeWall
        simp only [h1, must, LRes.bind, if_true]
        rw [if_neg h2, if_neg (by simpa using hne)]
        rw [mapM_some (g := fun i : Nat => (⟨(c.getD i ⟨0, 0⟩).r, (c.getD i ⟨0, 0⟩).z⟩ : Pt)), points_of_range]
        · rfl
        · intro i hi
          rw [List.mem_range] at hi
          rw [hv i 0 hi (by omega), hv i 1 hi (by omega)]
          rfl

/-- Everything up to the wall. -/
theorem luke_arrays (f : FData) (d : LukeData) (hf : LukeFile f d) (hg : d.Good) :
    ∃ br bphi bz flux : List ℝ, (∀ w, lukeLoad f w = (lukeWall w).bind fun wall =>
        ofRes (finish d.id d.id (d.x.map (· + d.rp)) (d.y.map (· + d.zp)) br bphi bz (some flux) ⟨d.rp, d.zp⟩ (some d.sep) wall)) ∧
      br.length = d.y.length * d.x.length ∧ bphi.length = d.y.length * d.x.length ∧ bz.length = d.y.length * d.x.length ∧
      flux.length = d.y.length * d.x.length ∧
      ∀ (i j : Nat) (x y : ℝ), d.x[i]? = some x → d.y[j]? = some y →
        flux[i + j * d.x.length]? = some (d.psin j i * d.psia) ∧
        (∃ z, br[i + j * d.x.length]? = some z ∧ Interpolates d.psig d.theta d.bx |d.psin j i| (lukeAngle x y) z) ∧
        (∃ z, bphi[i + j * d.x.length]? = some z ∧ Interpolates d.psig d.theta d.bphi |d.psin j i| (lukeAngle x y) z) ∧
        (∃ z, bz[i + j * d.x.length]? = some z ∧ Interpolates d.psig d.theta d.bz |d.psin j i| (lukeAngle x y) z) := by
  obtain ⟨psinR, hpsin, vpsin⟩ := luke_table hf.psin
  obtain ⟨bxR, hbx, vbx⟩ := luke_table hf.bx
  obtain ⟨bzR, hbz, vbz⟩ := luke_table hf.bz
  obtain ⟨btR, hbt, vbt⟩ := luke_table hf.bphi
  obtain ⟨pxR, hpx, vpx⟩ := luke_table hf.ptx
  obtain ⟨pyR, hpy, vpy⟩ := luke_table hf.pty
  have hlen : d.psig.length = d.psi.length := by simp [LukeData.psig]
  have hpsi2 : 2 ≤ d.psig.length := by rw [hlen]; exact hg.psi
  rw [← hlen] at vbx vbz vbt
  obtain ⟨br, hbr, lbr, gbr⟩ := lukeField_spec hpsi2 hg.theta hg.psiInc hg.thetaInc vbx vpsin
  obtain ⟨bphi, hbphi, lbphi, gbphi⟩ := lukeField_spec hpsi2 hg.theta hg.psiInc hg.thetaInc vbt vpsin
  obtain ⟨bz, hbz', lbz, gbz⟩ := lukeField_spec hpsi2 hg.theta hg.psiInc hg.thetaInc vbz vpsin
  obtain ⟨flux, hflux, lflux, gflux⟩ := grid_values d.x.length d.y.length (fun j i => (at2 psinR j i).map (· * d.psia))
    (fun j i => d.psin j i * d.psia) (by intro j i hj hi; rw [vpsin j i hj hi]; rfl)
  have hsep := lukeSep_spec (axis := ⟨d.rp, d.zp⟩) (np := d.psi.length) (by have := hg.psi; omega) vpx vpy
  refine ⟨br, bphi, bz, flux, ?_, lbr, lbphi, lbz, lflux, ?_⟩
  · intro w
    have hid : f.string "equil/id" = some d.id := by unfold FData.string; rw [hf.id]
    have hnorm : normalised d.psi = .ok d.psig := by
      unfold normalised
      rw [if_neg (by intro h; have := hg.psi; rw [h] at this; simp at this), if_neg hg.last]
      rfl
    have hinit : gslInit d.psig d.theta = .ok () := by
      unfold gslInit
      rw [if_pos ⟨hpsi2, hg.theta, hg.psiInc, hg.thetaInc⟩]
    unfold lukeLoad
    simp only [hid, must, LRes.bind, luke_num hf.rp, luke_num hf.zp, luke_num hf.psia, luke_vec hf.x, luke_vec hf.y, luke_vec hf.psi,
      luke_vec hf.theta, hpsin, if_neg hg.y, hnorm, hbx, hbz, hbt, hinit, hpx, hpy, hsep, inside, hbr, hbphi, hbz',
      show lukeFlux d.x.length d.y.length psinR d.psia = some flux from hflux]
    rfl
  · intro i j x y hx hy
    obtain ⟨hi, _⟩ := List.getElem?_eq_some_iff.1 hx
    obtain ⟨hj, _⟩ := List.getElem?_eq_some_iff.1 hy
    exact ⟨gflux j i hj hi, gbr i j x y hx hy, gbphi i j x y hx hy, gbz i j x y hx hy⟩

/-- C89: a LUKE equilibrium is loaded as it is in the file.  The grid is shifted by the position
of the axis, the flux is the normalised flux times its value on the last surface, every component
of the field is the bilinear interpolation of its own table at the normalised flux and the
poloidal angle of the grid point, the separatrix is the last surface, and the domain is the wall
if there is one and otherwise the separatrix.  The hypothesis on `findMaxRadius` is necessary, see
`C89_refuted_first_angle`. -/
theorem C89_load_partial (f : FData) (w : Option FData) (d : LukeData) (wall : Option (List Pt)) (hf : LukeFile f d) (hg : d.Good)
    (hw : IsWall w wall) (mx mn : ℝ) (hm : findMaxRadius ⟨d.rp, d.zp⟩ d.sep = .ok mx mn) :
    ∃ n, lukeLoad f w = .ok n ∧ n.name = d.id ∧ n.desc = d.id ∧ n.axis = ⟨d.rp, d.zp⟩ ∧ n.sep = some d.sep ∧ n.separatrix = d.sep ∧
      n.wall = wall ∧ n.dom = wall.getD d.sep ∧ n.maxradius = mx ∧ n.minradius = mn ∧
      n.R.length = d.x.length ∧ n.Z.length = d.y.length ∧ n.Br.length = d.y.length * d.x.length ∧
      n.Bphi.length = d.y.length * d.x.length ∧ n.Bz.length = d.y.length * d.x.length ∧
      ∃ flux, n.Psi = some flux ∧ flux.length = d.y.length * d.x.length ∧
      ∀ (i j : Nat) (x y : ℝ), d.x[i]? = some x → d.y[j]? = some y →
        n.R[i]? = some (x + d.rp) ∧ n.Z[j]? = some (y + d.zp) ∧ flux[i + j * d.x.length]? = some (d.psin j i * d.psia) ∧
        ∃ θ bx bphi bz, PolarAngle x y θ ∧
          n.Br[i + j * d.x.length]? = some bx ∧ Interpolates d.psig d.theta d.bx |d.psin j i| θ bx ∧
          n.Bphi[i + j * d.x.length]? = some bphi ∧ Interpolates d.psig d.theta d.bphi |d.psin j i| θ bphi ∧
          n.Bz[i + j * d.x.length]? = some bz ∧ Interpolates d.psig d.theta d.bz |d.psin j i| θ bz := by
  obtain ⟨br, bphi, bz, flux, hl, l1, l2, l3, l4, hv⟩ := luke_arrays f d hf hg
  have hsl : 0 < d.sep.length := by have := hg.theta; simp [LukeData.sep]; omega
  have hr : radiusDom (some d.sep) wall = d.sep := by unfold radiusDom; rw [Option.getD_some, if_pos hsl]
  have hd : domainOf (some d.sep) wall = wall.getD d.sep := by cases wall <;> rfl
  refine ⟨_, by rw [hl w, luke_wall hw]; unfold LRes.bind finish; simp only [hr, hm]; rfl, rfl, rfl, rfl, rfl, rfl, rfl, hd, rfl, rfl,
    by simp, by simp, l1, l2, l3, flux, rfl, l4, ?_⟩
  intro i j x y hx hy
  obtain ⟨h1, ⟨b1, h2, h3⟩, ⟨b2, h4, h5⟩, ⟨b3, h6, h7⟩⟩ := hv i j x y hx hy
  refine ⟨by simp [hx], by simp [hy], h1, lukeAngle x y, b1, b2, b3, lukeAngle_spec x y, h2, h3, h4, h5, h6, h7⟩

/-- C89: at the nodes of the table the interpolation is the tabulated value. -/
theorem C89_table_node (xs ys : List ℝ) (v : Nat → Nat → ℝ) (hxi : xs.Pairwise (· < ·)) (hyi : ys.Pairwise (· < ·)) (k l : Nat) (x y z : ℝ)
    (hk : xs[k]? = some x) (hl : ys[l]? = some y) (h : Interpolates xs ys v x y z) : z = v l k := by
  obtain ⟨k', l', x0, x1, y0, y1, h1, h2, h3, h4, h5, h6, h7, h8, e⟩ := h
  have dx := increasing_lt hxi h1 h2 (by omega)
  have dy := increasing_lt hyi h3 h4 (by omega)
  have kx : (k = k' ∧ x = x0) ∨ (k = k' + 1 ∧ x = x1) := by
    have hb := (List.getElem?_eq_some_iff.1 hk).1
    rcases Nat.lt_trichotomy k k' with hlt | rfl | hgt
    · have := increasing_lt hxi hk h1 hlt
      rcases h5 with rfl | h5
      · omega
      · linarith
    · exact .inl ⟨rfl, Option.some.inj (hk.symm.trans h1)⟩
    · rcases Nat.lt_or_ge (k' + 1) k with hgt | hle
      · have := increasing_lt hxi h2 hk hgt
        rcases h6 with h6 | h6
        · omega
        · linarith
      · obtain rfl : k = k' + 1 := by omega
        exact .inr ⟨rfl, Option.some.inj (hk.symm.trans h2)⟩
  have ly : (l = l' ∧ y = y0) ∨ (l = l' + 1 ∧ y = y1) := by
    have hb := (List.getElem?_eq_some_iff.1 hl).1
    rcases Nat.lt_trichotomy l l' with hlt | rfl | hgt
    · have := increasing_lt hyi hl h3 hlt
      rcases h7 with rfl | h7
      · omega
      · linarith
    · exact .inl ⟨rfl, Option.some.inj (hl.symm.trans h3)⟩
    · rcases Nat.lt_or_ge (l' + 1) l with hgt | hle
      · have := increasing_lt hyi h4 hl hgt
        rcases h8 with h8 | h8
        · omega
        · linarith
      · obtain rfl : l = l' + 1 := by omega
        exact .inr ⟨rfl, Option.some.inj (hl.symm.trans h4)⟩
  have hne : (x1 - x0) * (y1 - y0) ≠ 0 := mul_ne_zero (by linarith [dx] : (x1 - x0 : ℝ) > 0).ne' (by linarith [dy] : (y1 - y0 : ℝ) > 0).ne'
  apply mul_left_cancel₀ hne
  rw [e]
  rcases kx with ⟨rfl, rfl⟩ | ⟨rfl, rfl⟩ <;> rcases ly with ⟨rfl, rfl⟩ | ⟨rfl, rfl⟩ <;> ring

/-- C89: a field that is bilinear in flux and angle is reproduced, inside and outside the table. -/
theorem C89_reproduces (xs ys : List ℝ) (v : Nat → Nat → ℝ) (hxi : xs.Pairwise (· < ·)) (hyi : ys.Pairwise (· < ·)) (a b c e : ℝ)
    (hv : ∀ (k l : Nat) (x y : ℝ), xs[k]? = some x → ys[l]? = some y → v l k = a + b * x + c * y + e * (x * y))
    (x y z : ℝ) (h : Interpolates xs ys v x y z) : z = a + b * x + c * y + e * (x * y) := by
  obtain ⟨k, l, x0, x1, y0, y1, h1, h2, h3, h4, _, _, _, _, h5⟩ := h
  have dx := increasing_lt hxi h1 h2 (by omega)
  have dy := increasing_lt hyi h3 h4 (by omega)
  have hne : (x1 - x0) * (y1 - y0) ≠ 0 := mul_ne_zero (by linarith [dx] : (x1 - x0 : ℝ) > 0).ne' (by linarith [dy] : (y1 - y0 : ℝ) > 0).ne'
  apply mul_left_cancel₀ hne
  rw [h5, hv k l x0 y0 h1 h3, hv (k + 1) l x1 y0 h2 h3, hv k (l + 1) x0 y1 h1 h4, hv (k + 1) (l + 1) x1 y1 h2 h4]
  ring

/-- C89: inside the table the interpolation stays within the bounds of the tabulated values. -/
theorem C89_bounded (xs ys : List ℝ) (v : Nat → Nat → ℝ) (hxi : xs.Pairwise (· < ·)) (hyi : ys.Pairwise (· < ·)) (lo hi : ℝ)
    (hv : ∀ k l, k < xs.length → l < ys.length → lo ≤ v l k ∧ v l k ≤ hi) (x y z xf xl yf yl : ℝ)
    (hx0 : xs.head? = some xf) (hxl : xs.getLast? = some xl) (hy0 : ys.head? = some yf) (hyl : ys.getLast? = some yl)
    (hx : xf ≤ x ∧ x ≤ xl) (hy : yf ≤ y ∧ y ≤ yl) (h : Interpolates xs ys v x y z) : lo ≤ z ∧ z ≤ hi := by
  obtain ⟨k, l, x0, x1, y0, y1, h1, h2, h3, h4, h5, h6, h7, h8, e⟩ := h
  have dx := increasing_lt hxi h1 h2 (by omega)
  have dy := increasing_lt hyi h3 h4 (by omega)
  have bk := (List.getElem?_eq_some_iff.1 h2).1
  have bl := (List.getElem?_eq_some_iff.1 h4).1
  rw [List.head?_eq_getElem?] at hx0 hy0
  rw [List.getLast?_eq_getElem?] at hxl hyl
  have a0 : 0 ≤ x - x0 := by
    rcases h5 with rfl | h5
    · rw [h1] at hx0; have := Option.some.inj hx0; linarith [hx.1]
    · linarith
  have a1 : 0 ≤ x1 - x := by
    rcases h6 with h6 | h6
    · rw [← h6, show k + 2 - 1 = k + 1 by omega, h2] at hxl; have := Option.some.inj hxl; linarith [hx.2]
    · linarith
  have b0 : 0 ≤ y - y0 := by
    rcases h7 with rfl | h7
    · rw [h3] at hy0; have := Option.some.inj hy0; linarith [hy.1]
    · linarith
  have b1 : 0 ≤ y1 - y := by
    rcases h8 with h8 | h8
    · rw [← h8, show l + 2 - 1 = l + 1 by omega, h4] at hyl; have := Option.some.inj hyl; linarith [hy.2]
    · linarith
  have hpos : 0 < (x1 - x0) * (y1 - y0) := mul_pos (by linarith) (by linarith)
  have w00 := mul_nonneg a1 b1
  have w10 := mul_nonneg a0 b1
  have w01 := mul_nonneg a1 b0
  have w11 := mul_nonneg a0 b0
  obtain ⟨c1, c2⟩ := hv k l (by omega) (by omega)
  obtain ⟨c3, c4⟩ := hv (k + 1) l bk (by omega)
  obtain ⟨c5, c6⟩ := hv k (l + 1) (by omega) bl
  obtain ⟨c7, c8⟩ := hv (k + 1) (l + 1) bk bl
  have hsum : (x1 - x0) * (y1 - y0) = (x1 - x) * (y1 - y) + (x - x0) * (y1 - y) + (x1 - x) * (y - y0) + (x - x0) * (y - y0) := by ring
  constructor
  · refine le_of_mul_le_mul_left ?_ hpos
    rw [e]
    calc (x1 - x0) * (y1 - y0) * lo = (x1 - x) * (y1 - y) * lo + (x - x0) * (y1 - y) * lo + (x1 - x) * (y - y0) * lo + (x - x0) * (y - y0) * lo := by
          rw [hsum]; ring
      _ ≤ _ := add_le_add (add_le_add (add_le_add (mul_le_mul_of_nonneg_left c1 w00) (mul_le_mul_of_nonneg_left c3 w10))
          (mul_le_mul_of_nonneg_left c5 w01)) (mul_le_mul_of_nonneg_left c7 w11)
  · refine le_of_mul_le_mul_left ?_ hpos
    rw [e]
    calc _ ≤ (x1 - x) * (y1 - y) * hi + (x - x0) * (y1 - y) * hi + (x1 - x) * (y - y0) * hi + (x - x0) * (y - y0) * hi :=
          add_le_add (add_le_add (add_le_add (mul_le_mul_of_nonneg_left c2 w00) (mul_le_mul_of_nonneg_left c4 w10))
          (mul_le_mul_of_nonneg_left c6 w01)) (mul_le_mul_of_nonneg_left c8 w11)
      _ = (x1 - x0) * (y1 - y0) * hi := by rw [hsum]; ring

/-- C89 as stated is refuted: when the first point of the last surface is at the height of the
axis (the first angle is 0, as usual), memory outside the arrays is touched. -/
theorem C89_refuted_first_angle (f : FData) (w : Option FData) (d : LukeData) (wall : Option (List Pt)) (hf : LukeFile f d) (hg : d.Good)
    (hw : IsWall w wall) (h0 : d.pty 0 (d.psi.length - 1) = 0) : lukeLoad f w = .ub := by
  obtain ⟨br, bphi, bz, flux, hl, _⟩ := luke_arrays f d hf hg
  have ht := hg.theta
  have hsl : 0 < d.sep.length := by simp [LukeData.sep]; omega
  have hr : radiusDom (some d.sep) wall = d.sep := by unfold radiusDom; rw [Option.getD_some, if_pos hsl]
  have hm : findMaxRadius ⟨d.rp, d.zp⟩ d.sep = .ub := by
    have hh : d.sep.head? = some ⟨d.ptx 0 (d.psi.length - 1) + d.rp, d.zp⟩ := by
      rw [List.head?_eq_getElem?]
      unfold LukeData.sep
      rw [List.getElem?_map, List.getElem?_range (by omega), Option.map_some, h0, zero_add]
    have hla : d.sep.getLast? = some (d.sep.getLast (by intro h; rw [h] at hsl; simp at hsl)) := List.getLast?_eq_some_getLast _
    refine C46_refuted_undefined _ _ _ _ hh hla ?_
    rcases le_total d.zp (d.sep.getLast (by intro h; rw [h] at hsl; simp at hsl)).z with h | h
    · exact .inl ⟨h, le_refl _⟩
    · exact .inr ⟨h, le_refl _⟩
  rw [hl w, luke_wall hw]
  unfold LRes.bind finish
  simp only [hr, hm]
  rfl

/-- C89 as stated is refuted: beyond the last angle of the table the field is extrapolated, not
continued periodically.  With tabulated angles 0, π/2, π and a component that is 0, 0, 1 there,
the value straight below the axis is 2. -/
theorem C89_refuted_periodic (psig : List ℝ) (hp : psig.Pairwise (· < ·)) (ψ z θ y : ℝ) (hy : y < 0) (hθ : PolarAngle 0 y θ)
    (h : Interpolates psig [0, Real.pi / 2, Real.pi] (fun l _ => if l = 2 then 1 else 0) ψ θ z) : z = 2 := by
  have hpi := Real.pi_pos
  have ht : θ = 3 * Real.pi / 2 := by
    refine polarAngle_unique (.inr hy.ne) hθ ⟨by linarith, by linarith, ?_, ?_⟩
    · rw [show 3 * Real.pi / 2 = Real.pi / 2 + Real.pi by ring, Real.cos_add_pi, Real.cos_pi_div_two]; simp
    · rw [show 3 * Real.pi / 2 = Real.pi / 2 + Real.pi by ring, Real.sin_add_pi, Real.sin_pi_div_two]
      rw [show (0 : ℝ) ^ 2 + y ^ 2 = (-y) ^ 2 by ring, Real.sqrt_sq (by linarith)]; ring
  obtain ⟨k, l, x0, x1, y0, y1, h1, h2, h3, h4, _, _, h7, h8, e⟩ := h
  have dx := increasing_lt hp h1 h2 (by omega)
  have hl : l = 1 := by
    rcases h8 with h8 | h8
    · simp at h8; omega
    · rcases l with _ | _ | l
      · simp at h4; rw [ht, ← h4] at h8; linarith
      · rfl
      · simp at h4
  subst hl
  simp at h3 h4
  subst h3 h4
  rw [ht] at e
  simp only [Nat.reduceAdd, OfNat.one_ne_ofNat, if_false, if_true, mul_zero, zero_add, mul_one] at e
  have hne : (x1 - x0) * (Real.pi - Real.pi / 2) ≠ 0 := mul_ne_zero (by linarith [dx] : (x1 - x0 : ℝ) > 0).ne' (by linarith : (Real.pi - Real.pi / 2 : ℝ) > 0).ne'
  apply mul_left_cancel₀ hne
  rw [e]
  ring

/-- The number of data is the product of the dimensions. -/
def SizedFile (f : FData) : Prop := ∀ n dims data, f.get n = some (.arr dims data) → data.length = dims.prod

theorem LRes.bind_ok {α β : Type} {r : LRes α} {k : α → LRes β} {b : β} : r.bind k = .ok b ↔ ∃ a, r = .ok a ∧ k a = .ok b := by
  cases r <;> simp [LRes.bind]

theorem must_ok {α : Type} {o : Option α} {a : α} : must o = .ok a ↔ o = some a := by
  cases o <;> simp [must]

theorem inside_ok {α : Type} {o : Option α} {a : α} : inside o = .ok a ↔ o = some a := by
  cases o <;> simp [inside]

theorem check_ok {b : Bool} {u : Unit} : check b = .ok u ↔ b = true := by
  cases b <;> simp [check]

theorem doubles_some {f : FData} {n : String} {a b : Nat} {rows : List (List ℝ)} (h : f.doubles n = some (a, b, rows)) :
    ∃ d, (f.get n = some (.arr [a, b] d) ∧ rows = rowsOf a b d) ∨ (a = 1 ∧ f.get n = some (.arr [b] d) ∧ rows = [d]) := by
  unfold FData.doubles at h
  split at h
  · next k d hd =>
    simp only [Option.some.injEq, Prod.mk.injEq] at h
    obtain ⟨rfl, rfl, rfl⟩ := h
    exact ⟨d, .inr ⟨rfl, hd, rfl⟩⟩
  · next a' b' d hd =>
    simp only [Option.some.injEq, Prod.mk.injEq] at h
    obtain ⟨rfl, rfl, rfl⟩ := h
    exact ⟨d, .inl ⟨hd, rfl⟩⟩
  · simp at h

theorem table_inv {f : FData} (hs : SizedFile f) {n : String} {a b : Nat} {rows : List (List ℝ)} (h : f.table n a b = .ok rows) :
    ∃ v, IsTable f n a b v := by
  unfold FData.table at h
  obtain ⟨⟨a', b', r⟩, h1, h⟩ := LRes.bind_ok.1 h
  obtain ⟨_, h2, _⟩ := LRes.bind_ok.1 h
  rw [must_ok] at h1
  rw [check_ok] at h2
  obtain ⟨rfl, rfl⟩ := of_decide_eq_true h2
  obtain ⟨d, hd⟩ := doubles_some h1
  have hl : d.length = a' * b' := by
    rcases hd with ⟨hd, _⟩ | ⟨ha, hd, _⟩
    · simpa using hs _ _ _ hd
    · rw [ha]; simpa using hs _ _ _ hd
  refine ⟨fun i j => d.getD (i * b' + j) 0, d, ?_, hl, ?_⟩
  · rcases hd with ⟨hd, _⟩ | ⟨ha, hd, _⟩
    · exact .inl hd
    · exact .inr ⟨ha, hd⟩
  · intro i j hi hj
    have : i * b' + j < d.length := by
      rw [hl]
      calc i * b' + j < i * b' + b' := by simp only at hj; omega
        _ = (i + 1) * b' := by ring
        _ ≤ a' * b' := Nat.mul_le_mul_right _ hi
    show d[i * b' + j]? = some (d.getD (i * b' + j) 0)
    rw [List.getD_eq_getElem?_getD, List.getElem?_eq_getElem this]
    rfl

theorem vector_inv {f : FData} (hs : SizedFile f) {n : String} {l : List ℝ} (h : f.vector n = .ok l) : IsVec f n l := by
  unfold FData.vector at h
  obtain ⟨⟨a, b, r⟩, h1, h⟩ := LRes.bind_ok.1 h
  obtain ⟨_, h2, h⟩ := LRes.bind_ok.1 h
  rw [must_ok] at h1
  rw [check_ok] at h2
  have h2 := of_decide_eq_true h2
  obtain ⟨d, hd⟩ := doubles_some h1
  simp only at h h2
  by_cases h0 : a = 0
  · rw [if_pos h0] at h; simp at h
  rw [if_neg h0] at h
  simp only [LRes.ok.injEq] at h
  rcases hd with ⟨hd, hr⟩ | ⟨ha, hd, hr⟩
  · have hl : d.length = a * b := by simpa using hs _ _ _ hd
    have hld : l = d := by rw [← h, hr]; exact flatten_rows b a d hl
    subst hld
    rcases h2 with rfl | rfl
    · right; left
      rw [show l.length = b by omega]; exact hd
    · right; right
      refine ⟨by intro hn; rw [hn] at hl; simp at hl; omega, ?_⟩
      rw [show l.length = a by omega]; exact hd
  · have hl : d.length = b := by simpa using hs _ _ _ hd
    have hld : l = d := by rw [← h, hr]; simp
    subst hld
    left
    rw [hl]; exact hd

theorem scalar_inv {f : FData} (hs : SizedFile f) {n : String} {x : ℝ} (h : f.scalar n = .ok x) : IsNum f n x := by
  unfold FData.scalar at h
  obtain ⟨⟨a, b, r⟩, h1, h⟩ := LRes.bind_ok.1 h
  obtain ⟨_, h2, h⟩ := LRes.bind_ok.1 h
  rw [must_ok] at h1
  rw [check_ok] at h2
  rw [inside_ok] at h
  obtain ⟨rfl, rfl⟩ := of_decide_eq_true h2
  obtain ⟨d, hd⟩ := doubles_some h1
  simp only at h hd
  have key : d.length = 1 → d[0]? = some x → d = [x] := by
    intro h1 h2
    match d, h1 with
    | [y], _ => simp at h2; rw [h2]
  rcases hd with ⟨hd, hr⟩ | ⟨_, hd, hr⟩
  · right
    rw [hr, at2_rowsOf (by omega) (by omega)] at h
    rw [hd, key (by simpa using hs _ _ _ hd) (by simpa using h)]
  · left
    rw [hr] at h
    rw [hd, key (by simpa using hs _ _ _ hd) (by simpa [at2] using h)]

/-- C89: only files with all variables, with tables of the right dimensions and with strictly
increasing abscissae are loaded: everything that loads is an equilibrium in the sense of
`C89_load_partial`. -/
theorem C89_only_equilibria (f : FData) (w : Option FData) (hs : SizedFile f) (n : NField) (h : lukeLoad f w = .ok n) :
    ∃ d, LukeFile f d ∧ d.Good := by
  unfold lukeLoad at h
  obtain ⟨id, h1, h⟩ := LRes.bind_ok.1 h
  obtain ⟨rp, h2, h⟩ := LRes.bind_ok.1 h
  obtain ⟨zp, h3, h⟩ := LRes.bind_ok.1 h
  obtain ⟨xs, h4, h⟩ := LRes.bind_ok.1 h
  obtain ⟨ys, h5, h⟩ := LRes.bind_ok.1 h
  obtain ⟨psinR, h6, h⟩ := LRes.bind_ok.1 h
  obtain ⟨psia, h7, h⟩ := LRes.bind_ok.1 h
  by_cases hy : ys = []
  · rw [if_pos hy] at h; simp at h
  rw [if_neg hy] at h
  obtain ⟨psi, h8, h⟩ := LRes.bind_ok.1 h
  obtain ⟨psig, h9, h⟩ := LRes.bind_ok.1 h
  obtain ⟨tsig, h10, h⟩ := LRes.bind_ok.1 h
  obtain ⟨bxR, h11, h⟩ := LRes.bind_ok.1 h
  obtain ⟨bzR, h12, h⟩ := LRes.bind_ok.1 h
  obtain ⟨btR, h13, h⟩ := LRes.bind_ok.1 h
  obtain ⟨_, h14, h⟩ := LRes.bind_ok.1 h
  obtain ⟨_, _, h⟩ := LRes.bind_ok.1 h
  obtain ⟨_, _, h⟩ := LRes.bind_ok.1 h
  obtain ⟨_, _, h⟩ := LRes.bind_ok.1 h
  obtain ⟨_, _, h⟩ := LRes.bind_ok.1 h
  obtain ⟨pxR, h15, h⟩ := LRes.bind_ok.1 h
  obtain ⟨pyR, h16, h⟩ := LRes.bind_ok.1 h
  have hid : f.get "equil/id" = some (.str id) := by
    rw [must_ok] at h1
    unfold FData.string at h1
    split at h1
    · next s hs' => simp only [Option.some.injEq] at h1; rw [← h1]; exact hs'
    · simp at h1
  obtain ⟨psin, h6⟩ := table_inv hs h6
  obtain ⟨bx, h11⟩ := table_inv hs h11
  obtain ⟨bz, h12⟩ := table_inv hs h12
  obtain ⟨bt, h13⟩ := table_inv hs h13
  obtain ⟨px, h15⟩ := table_inv hs h15
  obtain ⟨py, h16⟩ := table_inv hs h16
  have hini : 2 ≤ psig.length ∧ 2 ≤ tsig.length ∧ increasing psig ∧ increasing tsig := by
    unfold gslInit at h14
    by_contra hc
    rw [if_neg hc] at h14
    simp at h14
  unfold normalised at h9
  by_cases hp : psi = []
  · rw [if_pos hp] at h9
    simp only [LRes.ok.injEq] at h9
    rw [← h9] at hini; simp at hini
  rw [if_neg hp] at h9
  by_cases hl : psi.getLastD 0 = 0
  · rw [if_pos hl] at h9; simp at h9
  rw [if_neg hl] at h9
  simp only [LRes.ok.injEq] at h9
  refine ⟨⟨id, rp, zp, xs, ys, psin, psia, psi, tsig, bx, bz, bt, px, py⟩,
    ⟨hid, scalar_inv hs h2, scalar_inv hs h3, vector_inv hs h4, vector_inv hs h5, h6, scalar_inv hs h7, vector_inv hs h8,
      vector_inv hs h10, h11, h12, h13, h15, h16⟩, ⟨hy, ?_, hini.2.1, hl, ?_, hini.2.2.2⟩⟩
  · have := hini.1; rw [← h9] at this; simpa using this
  · show List.Pairwise (· < ·) (psi.map fun p => |p / psi.getLastD 0|)
    rw [h9]; exact hini.2.2.1

/-- C89: a wall with neither two rows nor two columns is rejected. -/
theorem C89_wall_rejected (w : FData) (a b : Nat) (v : Nat → Nat → ℝ) (h : IsTable w "wall" a b v) (ha : a ≠ 2) (hb : b ≠ 2) :
    lukeWall (some w) = .throws := by
  obtain ⟨rows, h1, _⟩ := luke_doubles h
  unfold lukeWall
  simp only [h1, must, LRes.bind]
  rw [if_neg ha, if_neg hb]

/-- C89 as stated is refuted: a wall of two points in columns is read as rows. -/
theorem C89_refuted_two_points (r0 z0 r1 z1 : ℝ) :
    lukeWall (some [("wall", .arr [2, 2] [r0, z0, r1, z1])]) = .ok (some [⟨r0, r1⟩, ⟨z0, z1⟩]) := by
  have h : IsWall (some [("wall", .arr [2, 2] [r0, z0, r1, z1])]) (some [⟨r0, r1⟩, ⟨z0, z1⟩]) := by
    left
    refine ⟨[r0, z0, r1, z1], .inl (by simp [FData.get]), rfl, ?_⟩
    intro i j hi hj
    simp only [List.length_cons, List.length_nil] at hj ⊢
    interval_cases i <;> interval_cases j <;> simp
  exact luke_wall h

/-- C89 as stated is refuted: an equilibrium without vertical positions is undefined. -/
theorem C89_refuted_empty (f : FData) (w : Option FData) (d : LukeData) (hf : LukeFile f d) (hy : d.y = []) : lukeLoad f w = .ub := by
  obtain ⟨psinR, hpsin, _⟩ := luke_table hf.psin
  have hid : f.string "equil/id" = some d.id := by unfold FData.string; rw [hf.id]
  unfold lukeLoad
  simp only [hid, must, LRes.bind, luke_num hf.rp, luke_num hf.zp, luke_num hf.psia, luke_vec hf.x, luke_vec hf.y, hpsin, if_pos hy]

/-- A file with a two by two grid, two surfaces and three angles. -/
def lukeSample : FData :=
  [("equil/id", .str "e"), ("equil/Rp", .arr [1] [3]), ("equil/Zp", .arr [1, 1] [0]), ("equil/eqdsk/x", .arr [2] [-1, 1]),
   ("equil/eqdsk/y", .arr [2, 1] [-1, 1]), ("equil/eqdsk/xypsin", .arr [2, 2] [0, 1, 1, 2]), ("equil/eqdsk/psia", .arr [1] [5]),
   ("equil/psi_apRp", .arr [1, 2] [0, -4]), ("equil/theta", .arr [3] [1, 2, 3]), ("equil/ptBx", .arr [3, 2] [0, 1, 2, 3, 4, 5]),
   ("equil/ptBy", .arr [3, 2] [0, 1, 2, 3, 4, 5]), ("equil/ptBPHI", .arr [3, 2] [0, 1, 2, 3, 4, 5]),
   ("equil/ptx", .arr [3, 2] [0, 1, 0, -1, 0, 1]), ("equil/pty", .arr [3, 2] [0, 1, 0, -1, 0, 1])]

def lukeSampleData : LukeData :=
  ⟨"e", 3, 0, [-1, 1], [-1, 1], fun i j => i + j, 5, [0, -4], [1, 2, 3], fun i j => 2 * i + j, fun i j => 2 * i + j,
    fun i j => 2 * i + j, fun i j => if j = 0 then 0 else if i = 1 then -1 else 1, fun i j => if j = 0 then 0 else if i = 1 then -1 else 1⟩

theorem lukeSample_is : LukeFile lukeSample lukeSampleData ∧ lukeSampleData.Good := by
  refine ⟨⟨by simp [lukeSample, lukeSampleData, FData.get], .inl (by simp [lukeSample, lukeSampleData, FData.get]),
    .inr (by simp [lukeSample, lukeSampleData, FData.get]), .inl (by simp [lukeSample, lukeSampleData, FData.get]),
    .inr (.inr ⟨by simp [lukeSampleData], by simp [lukeSample, lukeSampleData, FData.get]⟩), ?_,
    .inl (by simp [lukeSample, lukeSampleData, FData.get]), .inr (.inl (by simp [lukeSample, lukeSampleData, FData.get])),
    .inl (by simp [lukeSample, lukeSampleData, FData.get]), ?_, ?_, ?_, ?_, ?_⟩, ⟨by simp [lukeSampleData], by simp [lukeSampleData],
    by simp [lukeSampleData], by simp [lukeSampleData], ?_, ?_⟩⟩
  · refine ⟨[0, 1, 1, 2], .inl (by simp [lukeSample, lukeSampleData, FData.get]), by simp [lukeSampleData], ?_⟩
    intro i j hi hj
    simp only [lukeSampleData, List.length_cons, List.length_nil] at hi hj ⊢
    interval_cases i <;> interval_cases j <;> norm_num
  iterate 3
    · refine ⟨[0, 1, 2, 3, 4, 5], .inl (by simp [lukeSample, lukeSampleData, FData.get]), by simp [lukeSampleData], ?_⟩
      intro i j hi hj
      simp only [lukeSampleData, List.length_cons, List.length_nil] at hi hj ⊢
      interval_cases i <;> interval_cases j <;> norm_num
  iterate 2
    · refine ⟨[0, 1, 0, -1, 0, 1], .inl (by simp [lukeSample, lukeSampleData, FData.get]), by simp [lukeSampleData], ?_⟩
      intro i j hi hj
      simp only [lukeSampleData, List.length_cons, List.length_nil] at hi hj ⊢
      interval_cases i <;> interval_cases j <;> norm_num
  · simp [lukeSampleData, LukeData.psig]
  · norm_num [lukeSampleData]

example : ∃ n, lukeLoad lukeSample none = .ok n ∧ n.dom = [⟨4, 1⟩, ⟨2, -1⟩, ⟨4, 1⟩] := by
  obtain ⟨hf, hg⟩ := lukeSample_is
  have hsep : lukeSampleData.sep = [⟨4, 1⟩, ⟨2, -1⟩, ⟨4, 1⟩] := by
    norm_num [LukeData.sep, lukeSampleData, List.range_succ]
  have hm : findMaxRadius ⟨lukeSampleData.rp, lukeSampleData.zp⟩ lukeSampleData.sep = .ok 3 3 := by
    rw [hsep]
    norm_num [lukeSampleData, findMaxRadius, spans, rpointsLoop, crossR, rpointsResult, maxMin]
  obtain ⟨n, h1, _, _, _, _, _, _, h2, _⟩ := C89_load_partial lukeSample none lukeSampleData none hf hg trivial 3 3 hm
  exact ⟨n, h1, by rw [h2, Option.getD_none, hsep]⟩

end

end Softlib
