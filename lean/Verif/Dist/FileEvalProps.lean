/-
From the contents of a distribution file to the values of the distribution (C115): loading, insertion, search in radius,
interpolation.  Models: LoadModel, NumericModel, MomentumModel.
-/
import Verif.Dist.LoadExactProps
import Verif.Dist.EvalProps

namespace Softlib

open Softlib.Dist

section

variable {M P : Type}

/-- Insertions do not change whether extrapolation is allowed. -/
theorem insertAll_allow (l : List (ℝ × M)) (d d' : NDist M ℝ) (h : NDist.insertAll d l = some d') : d'.allow = d.allow := by
  induction l generalizing d with
  | nil => simp only [NDist.insertAll, Option.some.injEq] at h; rw [h]
  | cons q l ih =>
    obtain ⟨r, m⟩ := q
    simp only [NDist.insertAll] at h
    split at h
    · cases h
    · rename_i d1 hd
      rw [ih d1 h]
      simp only [NDist.insert] at hd
      split at hd
      · cases hd
      · split at hd
        · cases hd
        · simp only [Option.some.injEq] at hd
          rw [← hd]

theorem softLoad_allow (magic : String) (type : Option String) (rmat : Mat ℝ) (radii : List (RadiusData ℝ)) (a : Option ℝ)
    (mk : RadiusData ℝ → M) (d : NDist M ℝ) (h : softLoad magic type rmat radii a mk = .ok d) : d.allow = true := by
  simp only [softLoad] at h
  repeat (first | split at h | cases h)
  rename_i hi
  exact insertAll_allow _ _ _ hi

theorem dreamLoad_allow (fdims : List Nat) (data : List ℝ) (nt : Nat) (r : List ℝ) (np nxi : Nat)
    (timestep : Int) (a : Option ℝ) (mk : List ℝ → M) (d : NDist M ℝ) (h : dreamLoad fdims data nt r np nxi timestep a mk = .ok d) :
    d.allow = true := by
  simp only [dreamLoad] at h
  repeat (first | split at h | cases h)
  rename_i hi
  · exact insertAll_allow _ _ _ hi
  · cases h

end

/-- The momentum distribution made from grids and values, without logarithms.  The value of the last line is not used: the theorems
below are about tables that GSL accepts, for which the initialisation succeeds. -/
noncomputable def momOf (interp : Int) (p xi f : List ℝ) : NMom :=
  match NMom.initialize ⟨p, xi, f.map FV.num, interp⟩ false false with
  | .ok m => m
  | _ => ⟨⟨[], [], [], 0⟩, 0, 0, 0, 0, false, false⟩

/-- The value of a momentum distribution where it is a number. -/
noncomputable def numEval (spline : Table → ℝ → ℝ → FV) (m : NMom) (q : ℝ × ℝ) : ℝ :=
  match m.eval spline q.1 q.2 with
  | .num v => v
  | _ => 0

/-- A table that GSL accepts (the initialisation succeeds), with one value for each pair of nodes. -/
structure GoodTable (interp : Int) (p xi f : List ℝ) : Prop where
  leastP : (if interp = 0 then 2 else 4) ≤ p.length
  leastXi : (if interp = 0 then 2 else 4) ≤ xi.length
  incP : p.Pairwise (· < ·)
  incXi : xi.Pairwise (· < ·)
  size : f.length = xi.length * p.length

/-- The spline reproduces the values of the table at the nodes of such tables (assumption on GSL; proved for linear interpolation in
LinearProps). -/
def TableExact (spline : Table → ℝ → ℝ → FV) (interp : Int) : Prop :=
  ∀ (p xi f : List ℝ) (j k : Nat) (x y v : ℝ), GoodTable interp p xi f →
    p[k]? = some x → xi[j]? = some y → f[j * p.length + k]? = some v → spline ⟨p, xi, f.map FV.num, interp⟩ x y = .num v

theorem GoodTable.gsl {interp : Int} {p xi f : List ℝ} (h : GoodTable interp p xi f) : GslTable ⟨p, xi, f.map FV.num, interp⟩ :=
  ⟨h.leastP, h.leastXi, h.incP, h.incXi, by simp [h.size, Nat.mul_comm]⟩

theorem increasing_ends {l : List ℝ} (h : l.Pairwise (· < ·)) {k : Nat} {x : ℝ} (hx : l[k]? = some x) :
    ∃ a b, l.head? = some a ∧ l.getLast? = some b ∧ a ≤ x ∧ x ≤ b := by
  have hk := lt_of_getElem? hx
  rw [List.getElem?_eq_getElem hk] at hx
  injection hx with hx
  have hmono : ∀ i j (hi : i < l.length) (hj : j < l.length), i ≤ j → l[i] ≤ l[j] := by
    intro i j hi hj hij
    rcases Nat.lt_or_eq_of_le hij with h' | rfl
    · exact le_of_lt (List.pairwise_iff_getElem.mp h i j hi hj h')
    · exact le_rfl
  refine ⟨l[0]'(by omega), l[l.length - 1]'(by omega), ?_, ?_, ?_, ?_⟩
  · rw [List.head?_eq_getElem?, List.getElem?_eq_getElem]
  · rw [List.getLast?_eq_getElem?, List.getElem?_eq_getElem]
  · rw [← hx]; exact hmono _ _ _ _ (by omega)
  · rw [← hx]; exact hmono _ _ _ _ (by omega)

theorem numEval_node (spline : Table → ℝ → ℝ → FV) (interp : Int) (hs : TableExact spline interp) (p xi f : List ℝ)
    (hg : GoodTable interp p xi f) (j k : Nat) (x y v : ℝ) (hx : p[k]? = some x) (hy : xi[j]? = some y) (hv : f[j * p.length + k]? = some v) :
    numEval spline (momOf interp p xi f) (x, y) = v := by
  obtain ⟨p0, p1, a1, a2, a3, a4⟩ := increasing_ends hg.incP hx
  obtain ⟨x0, x1, b1, b2, b3, b4⟩ := increasing_ends hg.incXi hy
  obtain ⟨m, e, -⟩ := C59_accepts ⟨p, xi, f.map FV.num, interp⟩ false false p0 p1 x0 x1 a1 a2 b1 b2 hg.gsl
  have h := (C59_table spline _ m p0 p1 x0 x1 a1 a2 b1 b2 e x y).1 a3 a4 b3 b4
  unfold numEval momOf
  rw [e]
  simp only [h, hs p xi f j k x y v hg hx hy hv]

theorem shifted_increasing {r : List ℝ} (h : r.Pairwise (· < ·)) (a : ℝ) : (r.map (· + a)).Pairwise (· < ·) := by
  rw [List.pairwise_map]
  exact h.imp fun h => by linarith

/-- **C115** A SOFT file: at each radius of the file (counted from the magnetic axis at `a`, whatever the drift shift), at the nodes of
the momentum grids of that radius, the distribution has the value stored there. -/
theorem C115_soft_partial (spline : Table → ℝ → ℝ → FV) (interp : Int) (hs : TableExact spline interp) (magic : String)
    (type : Option String) (rmat : Mat ℝ) (radii : List (RadiusData ℝ)) (a shift : ℝ) (hsmall : rmat.data.length ≤ 2 ^ 30)
    (hdata : rmat.data.length = rmat.rows * rmat.cols) (h2 : 2 ≤ rmat.data.length) (h0 : rmat.data[0]? ≠ some (-a))
    (hok : (type = none ∨ type = some magic) ∧ IsVector rmat rmat.data.length ∧ rmat.data.length ≤ radii.length ∧
      (∀ q ∈ radii.take rmat.data.length, FitsTogether q ∧ GoodTable interp q.p.data q.xi.data q.f.data) ∧
      rmat.data.Pairwise (· < ·)) :
    ∃ d, softLoad magic type rmat radii (some a) (fun q => momOf interp q.p.data q.xi.data q.f.data) = .ok d ∧
      ∀ (i j k : Nat) (ri x y v : ℝ) (q : RadiusData ℝ), rmat.data[i]? = some ri → radii[i]? = some q →
        q.p.data[k]? = some x → q.xi.data[j]? = some y →
        q.f.data[j * q.p.data.length + k]? = some v → d.eval (numEval spline) (ri + a + shift) (x, y) shift = .ok v := by
  obtain ⟨k1, k2, k3, k4, k5⟩ := hok
  obtain ⟨d, e, hr, hm⟩ := (C65_soft_exact magic type rmat radii a (fun q => momOf interp q.p.data q.xi.data q.f.data) hsmall hdata
    (rmat.data.map (· + a)) ((radii.take rmat.data.length).map fun q => momOf interp q.p.data q.xi.data q.f.data)).mpr
    ⟨k1, k2, k3, fun q hq => (k4 q hq).1, k5, rfl, rfl⟩
  refine ⟨d, e, fun i j k ri x y v q hi hq hx hy hv => ?_⟩
  have hi' := lt_of_getElem? hi
  have hg := (k4 q (List.mem_of_getElem? (by rw [List.getElem?_take, if_pos hi']; exact hq))).2
  have hgrid : GoodGrid d := by
    refine ⟨by rw [hr]; exact shifted_increasing k5 a, by rw [hr]; simpa using h2, by rw [hr]; simpa using hsmall, ?_⟩
    rw [hr, hm]; simp; omega
  have hz : d.r[0]? ≠ some 0 := by
    rw [hr, List.getElem?_map]
    cases h : rmat.data[0]? with
    | none => simp
    | some r0 =>
      simp only [Option.map_some, ne_eq, Option.some.injEq]
      intro h'
      exact h0 (by rw [h]; congr 1; linarith)
  rw [C56_grid_partial (numEval spline) d hgrid hz (ri + a + shift) shift (x, y) i (momOf interp q.p.data q.xi.data q.f.data) ?_ ?_
    (Or.inl (softLoad_allow _ _ _ _ _ _ _ e)), numEval_node spline interp hs _ _ _ hg j k x y v hx hy hv]
  · rw [hr, List.getElem?_map, hi]; simp
  · rw [hm, List.getElem?_map, List.getElem?_take, if_pos hi', hq]; rfl

/-- **C115** A DREAM file, time step `t`: at each radius of the file and at the nodes of its momentum grid, the distribution has the
value stored for this time, radius, pitch and momentum. -/
theorem C115_dream_partial (spline : Table → ℝ → ℝ → FV) (interp : Int) (hs : TableExact spline interp) (d0 nt t : Nat)
    (data r p xi : List ℝ) (a shift : ℝ) (hsmall : r.length ≤ 2 ^ 30) (hdata : data.length = nt * (r.length * p.length * xi.length))
    (hbig : (nt + 2147483648) * (r.length * p.length * xi.length) < 18446744073709551616) (hnt : nt + 2147483648 < 18446744073709551616)
    (ht : t < nt) (ht' : t ≤ 2147483647) (hr : r.Pairwise (· < ·)) (h2 : 2 ≤ r.length) (h0 : r[0]? ≠ some (-a))
    (hp : p.Pairwise (· < ·)) (hxi : xi.Pairwise (· < ·)) (hp2 : (if interp = 0 then 2 else 4) ≤ p.length)
    (hxi2 : (if interp = 0 then 2 else 4) ≤ xi.length) :
    ∃ d, dreamLoad [d0, r.length, xi.length, p.length] data nt r p.length xi.length t (some a) (momOf interp p xi) = .ok d ∧
      ∀ (i j k : Nat) (ri x y v : ℝ), r[i]? = some ri → xi[j]? = some y → p[k]? = some x →
        data[((t * r.length + i) * xi.length + j) * p.length + k]? = some v →
        d.eval (numEval spline) (ri + a + shift) (x, y) shift = .ok v := by
  obtain ⟨d, e, hdr, hlen, hm⟩ := C65_dream_data d0 p.length xi.length nt t data r a (momOf interp p xi) hsmall hdata hbig hnt ht ht' hr
  refine ⟨d, e, fun i j k ri x y v hi hy hx hv => ?_⟩
  have hi' := lt_of_getElem? hi
  have hj' := lt_of_getElem? hy
  have hk' := lt_of_getElem? hx
  obtain ⟨f, hmf, hfl, hfv⟩ := hm i hi'
  have hgrid : GoodGrid d := by
    refine ⟨by rw [hdr]; exact shifted_increasing hr a, by rw [hdr]; simpa using h2, by rw [hdr]; simpa using hsmall, ?_⟩
    rw [hdr, hlen]; simp
  have hz : d.r[0]? ≠ some 0 := by
    rw [hdr, List.getElem?_map]
    cases h : r[0]? with
    | none => simp
    | some r0 =>
      simp only [Option.map_some, ne_eq, Option.some.injEq]
      intro h'
      exact h0 (by rw [h]; congr 1; linarith)
  have hin : j * p.length + k < p.length * xi.length := by
    calc j * p.length + k < j * p.length + p.length := by omega
      _ = (j + 1) * p.length := by ring
      _ ≤ xi.length * p.length := Nat.mul_le_mul_right _ hj'
      _ = p.length * xi.length := Nat.mul_comm _ _
  have hval : f[j * p.length + k]? = some v := by
    rw [hfv _ hin, ← hv]
    congr 1
    ring
  rw [C56_grid_partial (numEval spline) d hgrid hz (ri + a + shift) shift (x, y) i (momOf interp p xi f) ?_ hmf
    (Or.inl (dreamLoad_allow _ _ _ _ _ _ _ _ _ _ e)), numEval_node spline interp hs p xi f ⟨hp2, hxi2, hp, hxi, by rw [hfl]; ring⟩ j k x y v hx hy hval]
  rw [hdr, List.getElem?_map, hi]; simp

/-- **C115** Between two consecutive radii of a SOFT file, at a momentum and pitch that are nodes of both grids, the value lies on
the straight line through the two stored values. -/
theorem C115_soft_between_partial (spline : Table → ℝ → ℝ → FV) (interp : Int) (hs : TableExact spline interp) (magic : String)
    (type : Option String) (rmat : Mat ℝ) (radii : List (RadiusData ℝ)) (a shift : ℝ) (hsmall : rmat.data.length ≤ 2 ^ 30)
    (hdata : rmat.data.length = rmat.rows * rmat.cols) (h0 : rmat.data[0]? ≠ some (-a))
    (hok : (type = none ∨ type = some magic) ∧ IsVector rmat rmat.data.length ∧ rmat.data.length ≤ radii.length ∧
      (∀ q ∈ radii.take rmat.data.length, FitsTogether q ∧ GoodTable interp q.p.data q.xi.data q.f.data) ∧
      rmat.data.Pairwise (· < ·)) :
    ∃ d, softLoad magic type rmat radii (some a) (fun q => momOf interp q.p.data q.xi.data q.f.data) = .ok d ∧
      ∀ (i j k j' k' : Nat) (r0 r1 r x y v w : ℝ) (q q' : RadiusData ℝ), rmat.data[i]? = some r0 → rmat.data[i + 1]? = some r1 →
        radii[i]? = some q → radii[i + 1]? = some q' → q.p.data[k]? = some x → q.xi.data[j]? = some y → q'.p.data[k']? = some x →
        q'.xi.data[j']? = some y → q.f.data[j * q.p.data.length + k]? = some v →
        q'.f.data[j' * q'.p.data.length + k']? = some w → r0 ≤ r → r ≤ r1 →
        d.eval (numEval spline) (r + a + shift) (x, y) shift = .ok (v + (w - v) * (r - r0) / (r1 - r0)) := by
  obtain ⟨k1, k2, k3, k4, k5⟩ := hok
  obtain ⟨d, e, hr, hm⟩ := (C65_soft_exact magic type rmat radii a (fun q => momOf interp q.p.data q.xi.data q.f.data) hsmall hdata
    (rmat.data.map (· + a)) ((radii.take rmat.data.length).map fun q => momOf interp q.p.data q.xi.data q.f.data)).mpr
    ⟨k1, k2, k3, fun q hq => (k4 q hq).1, k5, rfl, rfl⟩
  refine ⟨d, e, fun i j k j' k' r0 r1 r x y v w q q' hi hi1 hq hq' hx hy hx' hy' hv hw hlo hhi => ?_⟩
  have hil := lt_of_getElem? hi
  have hil1 := lt_of_getElem? hi1
  have hg := (k4 q (List.mem_of_getElem? (by rw [List.getElem?_take, if_pos hil]; exact hq))).2
  have hg' := (k4 q' (List.mem_of_getElem? (by rw [List.getElem?_take, if_pos hil1]; exact hq'))).2
  have hgrid : GoodGrid d := by
    refine ⟨by rw [hr]; exact shifted_increasing k5 a, by rw [hr]; simp; omega, by rw [hr]; simpa using hsmall, ?_⟩
    rw [hr, hm]; simp; omega
  have hz : d.r[0]? ≠ some 0 := by
    rw [hr, List.getElem?_map]
    cases h : rmat.data[0]? with
    | none => simp
    | some r0 =>
      simp only [Option.map_some, ne_eq, Option.some.injEq]
      intro h'
      exact h0 (by rw [h]; congr 1; linarith)
  rw [C56_between_partial (numEval spline) d hgrid hz (r + a + shift) shift (x, y) i (r0 + a) (r1 + a)
    (momOf interp q.p.data q.xi.data q.f.data) (momOf interp q'.p.data q'.xi.data q'.f.data) ?_ ?_ ?_ ?_ (by linarith) (by linarith)
    (Or.inl (softLoad_allow _ _ _ _ _ _ _ e)), numEval_node spline interp hs _ _ _ hg j k x y v hx hy hv,
    numEval_node spline interp hs _ _ _ hg' j' k' x y w hx' hy' hw]
  · congr 1
    unfold lineThrough
    rw [show r + a + shift - shift - (r0 + a) = r - r0 by ring, show r1 + a - (r0 + a) = r1 - r0 by ring]
  · rw [hr, List.getElem?_map, hi]; simp
  · rw [hr, List.getElem?_map, hi1]; simp
  · rw [hm, List.getElem?_map, List.getElem?_take, if_pos hil, hq]; rfl
  · rw [hm, List.getElem?_map, List.getElem?_take, if_pos hil1, hq']; rfl

/-- **C115** A SOFT file with one radius: the stored values count at every position except 0. -/
theorem C115_soft_one (spline : Table → ℝ → ℝ → FV) (interp : Int) (hs : TableExact spline interp) (magic : String) (q : RadiusData ℝ)
    (a shift r r0 : ℝ) (hq : FitsTogether q) (hg : GoodTable interp q.p.data q.xi.data q.f.data) (j k : Nat) (x y v : ℝ)
    (hx : q.p.data[k]? = some x) (hy : q.xi.data[j]? = some y) (hv : q.f.data[j * q.p.data.length + k]? = some v) :
    ∃ d, softLoad magic none ⟨1, 1, [r0]⟩ [q] (some a) (fun q => momOf interp q.p.data q.xi.data q.f.data) = .ok d ∧
      d.eval (numEval spline) r (x, y) shift = if r - shift = 0 then .divZero else .ok v := by
  obtain ⟨d, e, hr, hm⟩ := (C65_soft_exact magic none ⟨1, 1, [r0]⟩ [q] a (fun q => momOf interp q.p.data q.xi.data q.f.data)
    (by simp) (by simp) [r0 + a] [momOf interp q.p.data q.xi.data q.f.data]).mpr
    ⟨Or.inl rfl, by simp [IsVector], by simp, by simpa using hq, by simp, by simp, by simp⟩
  refine ⟨d, e, ?_⟩
  rw [C56_single (numEval spline) d (r0 + a) (momOf interp q.p.data q.xi.data q.f.data) hr (by rw [hm]; rfl) r shift (x, y)
    (Or.inl (softLoad_allow _ _ _ _ _ _ _ e)), numEval_node spline interp hs _ _ _ hg j k x y v hx hy hv]

/-- **C115** (refuted) If the first radius of the file lies at major radius zero, evaluation there divides by zero, whatever is
stored. -/
theorem C115_refuted_zero (spline : Table → ℝ → ℝ → FV) (interp : Int) (magic : String) (q q' : RadiusData ℝ) (hq : FitsTogether q)
    (hq' : FitsTogether q') (_ : GoodTable interp q.p.data q.xi.data q.f.data) (_ : GoodTable interp q'.p.data q'.xi.data q'.f.data)
    (a : ℝ) (x y : ℝ) :
    ∃ d, softLoad magic none ⟨1, 2, [-a, 1 - a]⟩ [q, q'] (some a) (fun q => momOf interp q.p.data q.xi.data q.f.data) = .ok d ∧
      d.eval (numEval spline) (-a + a + 0) (x, y) 0 = .divZero := by
  obtain ⟨d, e, hr, hm⟩ := (C65_soft_exact magic none ⟨1, 2, [-a, 1 - a]⟩ [q, q'] a
    (fun q => momOf interp q.p.data q.xi.data q.f.data) (by simp) (by simp) [-a + a, 1 - a + a]
    [momOf interp q.p.data q.xi.data q.f.data, momOf interp q'.p.data q'.xi.data q'.f.data]).mpr
    ⟨Or.inl rfl, by simp [IsVector], by simp, by simpa using ⟨hq, hq'⟩, by simp, by simp, by simp⟩
  refine ⟨d, e, ?_⟩
  exact C56_refuted_zero (numEval spline) d ⟨by rw [hr]; simp, by rw [hr]; simp, by rw [hr]; simp, by rw [hr, hm]; rfl⟩ _ _ _
    (1 - a + a) (by rw [hr]; simp) (by rw [hr]; rfl) (by simp) (by simp) (Or.inl (softLoad_allow _ _ _ _ _ _ _ e))

open Classical in
/-- Looking nodes up in the table is a spline as assumed: the assumption can be met. -/
theorem tableExact_lookup (interp : Int) :
    TableExact (fun T x y => T.f.getD (T.xi.idxOf y * T.p.length + T.p.idxOf x) (.num 0)) interp := by
  intro p xi f j k x y v hg hx hy hv
  have key : ∀ (l : List ℝ) (k : Nat) (x : ℝ), l.Pairwise (· < ·) → l[k]? = some x → l.idxOf x = k := by
    intro l k x hl hx
    have hk := lt_of_getElem? hx
    rw [List.getElem?_eq_getElem hk] at hx
    injection hx with hx
    rw [← hx]
    exact List.Nodup.idxOf_getElem (hl.imp (fun h => ne_of_lt h)) k hk
  simp only [key p k x hg.incP hx, key xi j y hg.incXi hy, List.getD_eq_getElem?_getD, List.getElem?_map, hv, Option.map_some, Option.getD_some]

open Classical in
example : ∃ d, softLoad "distribution/soft" none ⟨1, 2, [0, 1]⟩
    [⟨⟨1, 2, [1, 2]⟩, ⟨1, 2, [0, 1]⟩, ⟨2, 2, [5, 6, 7, 8]⟩⟩, ⟨⟨1, 3, [2, 3, 4]⟩, ⟨1, 2, [0, 1]⟩, ⟨2, 3, [8, 9, 10, 11, 12, 13]⟩⟩] (some 3)
      (fun q => momOf 0 q.p.data q.xi.data q.f.data) = .ok d ∧
    d.eval (numEval fun T x y => T.f.getD (T.xi.idxOf y * T.p.length + T.p.idxOf x) (.num 0)) (0 + 3 + 7) (2, 0) 7 = .ok 6 := by
  obtain ⟨d, e, h⟩ := C115_soft_partial _ 0 (tableExact_lookup 0) "distribution/soft" none ⟨1, 2, [0, 1]⟩
    [⟨⟨1, 2, [1, 2]⟩, ⟨1, 2, [0, 1]⟩, ⟨2, 2, [5, 6, 7, 8]⟩⟩, ⟨⟨1, 3, [2, 3, 4]⟩, ⟨1, 2, [0, 1]⟩, ⟨2, 3, [8, 9, 10, 11, 12, 13]⟩⟩] 3 7
    (by simp) (by simp) (by simp) (by simp) ⟨Or.inl rfl, by simp [IsVector], by simp, by
      intro q hq
      simp only [List.length_cons, List.length_nil, List.take_succ_cons, List.take_zero, List.mem_cons, List.not_mem_nil, or_false] at hq
      rcases hq with rfl | rfl
      · exact ⟨by simp [FitsTogether, IsVector], ⟨by simp, by simp, by norm_num, by norm_num, by simp⟩⟩
      · exact ⟨by simp [FitsTogether, IsVector], ⟨by simp, by simp, by norm_num, by norm_num, by simp⟩⟩, by simp⟩
  exact ⟨d, e, h 0 0 1 0 2 0 6 _ rfl rfl rfl rfl rfl⟩

end Softlib
