/-
C125, C121: CODE and GO+CODE files with every type of interpolation, at every momentum.
-/
import Verif.Dist.GoFileProps
import Verif.Dist.PeriodicProps

namespace Softlib

open Dist Magnetic

noncomputable section

/-- Mode `k` of time step `t` at momentum `p`: the stored values of the mode, interpolated in the selected way. -/
def modeAt (d : CodeData) (me : ℝ) (t : Nat) (itype : Int) (k : Nat) (p : ℝ) : ℝ :=
  if itype = 0 then linear1 d.momenta ((List.range d.np).map (d.mode me t k)) p
  else gslMode itype d.momenta ((List.range d.np).map (d.mode me t k)) p

/-- `v` is the positive part of the Legendre sum of the interpolated modes, and zero outside of the stored momenta. -/
structure IsModeValue (d : CodeData) (me : ℝ) (t : Nat) (itype : Int) (p xi v : ℝ) : Prop where
  inside : d.p 0 ≤ p → p ≤ d.p (d.np - 1) → v = max 0 (∑ k ∈ Finset.range d.nleg, modeAt d me t itype k p * legP (-xi) k)
  outside : p < d.p 0 ∨ d.p (d.np - 1) < p → v = 0

theorem codeMode_row {me : ℝ} {d : CodeData} {t : Nat} {ff : List ℝ} (h1 : ff.length = d.np * d.nleg)
    (h2 : ∀ k j, k < d.nleg → j < d.np → ff[k * d.np + j]? = some (d.mode me t k j)) {k : Nat} (hk : k < d.nleg) :
    (ff.drop (k * d.momenta.length)).take d.momenta.length = (List.range d.np).map (d.mode me t k) := by
  obtain ⟨hl, hget⟩ := codeMode_values (spl := gslMode) h1 h2 hk
  refine List.ext_getElem? fun j => ?_
  rcases Nat.lt_or_ge j d.np with hj | hj
  · rw [hget j hj, List.getElem?_map, List.getElem?_range hj]; rfl
  · rw [List.getElem?_eq_none (by omega), List.getElem?_eq_none (by simpa using hj)]

theorem codeLoad_modes {me : ℝ} (hme : 0 < me) (garbage : Nat → List ℝ) {F : CodeFile} {d : CodeData}
    (hF : CodeFileOf F d) (hs : CodeSizes d) (hT : 0 < d.Tref) {time : Int} {t : Nat} (ht : IsTime d.nt time t) {itype : Int}
    (hg : CodeGood d itype) : codeLoad me gslMode garbage F time itype = .ok (Code.new (d.momenta.headD 0) (d.momenta.getLastD 0)
      ((List.range d.nleg).map fun m => modeAt d me t itype m) (garbage d.nleg)) := by
  obtain ⟨ff, h1, hv, hload⟩ := codeLoad_good hme gslMode garbage hF hs hT ht hg
  rw [hload]
  congr 2
  refine List.map_congr_left fun k hk => ?_
  rw [List.mem_range] at hk
  funext p
  unfold codeMode modeAt
  rw [codeMode_row h1 hv hk]
  split <;> rfl

/-- **C125** A CODE file, interpolated in any way: at every momentum and pitch, after any history of evaluations, the positive part of
the Legendre sum of the interpolated modes, and zero outside of the stored momenta. -/
theorem C125_values {me : ℝ} (hme : 0 < me) (garbage : Nat → List ℝ) (hgl : ∀ n, (garbage n).length = n) {F : CodeFile} {d : CodeData}
    (hF : CodeFileOf F d) (hs : CodeSizes d) (hT : 0 < d.Tref) {time : Int} {t : Nat} (ht : IsTime d.nt time t) {itype : Int}
    (hg : CodeGood d itype) (h2 : 2 ≤ d.nleg) :
    ∃ c, codeLoad me gslMode garbage F time itype = .ok c ∧
      ∀ ops : List (CodeOp ℝ), (∀ o ∈ ops, o.isEval = true) → ∃ c1, runCode c ops = some c1 ∧ ∀ p xi,
        ∃ v c2, c1.eval p xi = some (v, c2) ∧ IsModeValue d me t itype p xi v := by
  have hnp : 2 ≤ d.np := le_trans h2 hg.modes
  refine ⟨_, codeLoad_modes hme garbage hF hs hT ht hg, fun ops hops => ?_⟩
  obtain ⟨c1, e1, hc⟩ := codeNew_value h2 hnp hg.increasing (fun m => modeAt d me t itype m) (garbage d.nleg) (hgl _) ops hops
  refine ⟨c1, e1, fun p xi => ?_⟩
  obtain ⟨hin, hout⟩ := hc p xi
  by_cases h : p < d.p 0 ∨ d.p (d.np - 1) < p
  · obtain ⟨c2, e⟩ := hout h
    refine ⟨0, c2, e, ⟨fun h1 h3 => ?_, fun _ => rfl⟩⟩
    rcases h with h | h <;> exact absurd h (not_lt.mpr (by assumption))
  · push Not at h
    obtain ⟨c2, e⟩ := hin h.1 h.2
    exact ⟨_, c2, e, ⟨fun _ _ => rfl, fun h' => by rcases h' with h' | h' <;> [exact absurd h' (not_lt.mpr h.1); exact absurd h' (not_lt.mpr h.2)]⟩⟩

theorem codes_modes {me : ℝ} (hme : 0 < me) (garbage : Nat → Nat → List ℝ) (hgl : ∀ i n, (garbage i n).length = n) {F : GoFile}
    {g : GoData} (hF : GoFileOf F g) {t : Nat} (ht : t < g.nt) {itype : Int} (hc : GoCodes g t itype) :
    CodesGive me gslMode garbage F g t itype fun i => IsModeValue (g.code t i) me 0 itype := fun k hk => by
  have hF' := hF.code t k ht hk
  have h2 := hc.modes k hk
  have ht0 : IsTime (g.code t k).nt 0 0 := ⟨hc.times k hk, Or.inl rfl⟩
  obtain ⟨c, hload, hrun⟩ := C125_values hme (garbage k) (hgl k) hF' (hc.sizes k hk) (hc.temperature k hk) ht0 (hc.good k hk) h2
  have hnew := codeLoad_modes hme (garbage k) hF' (hc.sizes k hk) (hc.temperature k hk) ht0 (hc.good k hk)
  rw [hload] at hnew
  injection hnew with hnew
  have hok : CodeOk c := by
    rw [hnew]
    exact ⟨by simp [Code.new, hgl], by simpa [Code.new] using h2⟩
  have hcache : CacheValid c := by
    rw [hnew]
    intro y hy
    cases hy
  refine ⟨c, hload, hok, hcache, fun p xi => ?_⟩
  obtain ⟨c1, e1, hv⟩ := hrun [] (by simp)
  cases e1
  obtain ⟨v, c2, e, hval⟩ := hv p xi
  obtain ⟨c', he, -⟩ := code_eval_spec c hok p xi (Or.inl hcache)
  rw [he] at e
  injection e with e
  have e' : codeValue c p xi = v := congrArg Prod.fst e
  rw [e']
  exact hval

/-- **C121** With every type of interpolation a GO+CODE file is loaded, and after any history of evaluations of the object, or of a
clone of it, every position from the first radius to the last has the straight line between the values of the CODE distributions of
the two neighbouring radii. -/
theorem C121_modes_partial {me : ℝ} (hme : 0 < me) (garbage garbage' : Nat → Nat → List ℝ) (hgl : ∀ i n, (garbage i n).length = n)
    (hgl' : ∀ i n, (garbage' i n).length = n) {F : GoFile} {g : GoData} (hF : GoFileOf F g) (hgr : GoGrid g) (hn : 2 ≤ g.nr) (a : ℝ)
    (h0 : g.r 0 + a ≠ 0) {time : Int} {t : Nat} (ht : IsTime g.nt time t) {itype : Int} (hc : GoCodes g t itype) :
    ∃ D, goFileLoad me gslMode garbage F (some a) time itype = .ok D ∧
      (∀ qs, ∃ d, goRun D qs = some d ∧ ∀ qs', ∃ d', goRun (goClone garbage' d) qs' = some d') ∧
      ∀ d, GoUse garbage' D d → ∀ i r p xi shift, i + 1 < g.nr → g.r i + a ≤ r - shift → r - shift ≤ g.r (i + 1) + a →
        ∃ v w d', IsModeValue (g.code t i) me 0 itype p xi v ∧ IsModeValue (g.code t (i + 1)) me 0 itype p xi w ∧
          goEval d r p xi shift = some (.ok (lineThrough (g.r i + a) (g.r (i + 1) + a) v w (r - shift)), d') :=
  go_between garbage' hgl' hF hgr hn a h0 ht (codes_modes hme garbage hgl hF ht.1 hc)

/-- A mode has the stored values at the stored momenta. -/
theorem modeAt_node (d : CodeData) (me : ℝ) (t : Nat) (itype : Int) (hinc : ∀ j, j + 1 < d.np → d.p j < d.p (j + 1)) (h2 : 2 ≤ d.np)
    (k j : Nat) (hj : j < d.np) : modeAt d me t itype k (d.p j) = d.mode me t k j := by
  have hm := momenta_increasing hinc
  have hl : ((List.range d.np).map (d.mode me t k)).length = d.momenta.length := by simp [momenta_length]
  have hg : ∀ i, i < d.np → ((List.range d.np).map (d.mode me t k))[i]? = some (d.mode me t k i) := fun i hi => by
    rw [List.getElem?_map, List.getElem?_range hi]; rfl
  unfold modeAt
  split
  · rcases Nat.lt_or_ge (j + 1) d.np with hj' | hj'
    · rw [linear1_between (by rw [momenta_length]; exact h2) hm hl (momenta_get d hj) (momenta_get d hj') (hg j hj) (hg (j + 1) hj')
        (le_refl _) (hinc j hj').le]
      rw [sub_self, zero_div]; ring
    · obtain ⟨i, rfl⟩ : ∃ i, j = i + 1 := ⟨j - 1, by omega⟩
      have hi := hinc i hj
      rw [linear1_between (by rw [momenta_length]; exact h2) hm hl (momenta_get d (by omega)) (momenta_get d hj) (hg i (by omega))
        (hg (i + 1) hj) hi.le (le_refl _)]
      rw [div_self (sub_pos.2 hi).ne']; ring
  · exact C125_nodes itype _ _ (by rw [momenta_length]; exact h2) hm j _ _ (momenta_get d hj) (hg j hj)

/-- **C121** At a momentum stored at both neighbouring radii: the straight line between the positive parts of the Legendre sums of the
stored values, with every type of interpolation. -/
theorem C121_nodes {d e : CodeData} {me : ℝ} {itype : Int} (hd : CodeGood d itype) (he : CodeGood e itype) (h2 : 2 ≤ d.np) (h2' : 2 ≤ e.np)
    {i j : Nat} (hi : i < d.np) (hj : j < e.np) {p : ℝ} (hp : d.p i = p) (hp' : e.p j = p) {xi v w : ℝ}
    (hv : IsModeValue d me 0 itype p xi v) (hw : IsModeValue e me 0 itype p xi w) :
    v = max 0 (d.sum me 0 i xi) ∧ w = max 0 (e.sum me 0 j xi) := by
  have key : ∀ {d : CodeData}, CodeGood d itype → 2 ≤ d.np → ∀ {i : Nat}, i < d.np → ∀ {v : ℝ}, IsModeValue d me 0 itype (d.p i) xi v →
      v = max 0 (d.sum me 0 i xi) := by
    intro d hd h2 i hi v hv
    have hinc := momenta_increasing hd.increasing
    have mono : ∀ a b, a ≤ b → b < d.np → d.p a ≤ d.p b := by
      intro a b hab hb
      rcases Nat.lt_or_ge a b with hlt | hge
      · exact (increasing_lt hinc (momenta_get d (by omega)) (momenta_get d hb) hlt).le
      · rw [show a = b by omega]
    rw [hv.inside (mono 0 i (by omega) hi) (mono i (d.np - 1) (by omega) (by omega))]
    congr 1
    unfold CodeData.sum
    refine Finset.sum_congr rfl fun k _ => ?_
    rw [modeAt_node d me 0 itype hd.increasing h2 k i hi]
  subst hp
  exact ⟨key hd h2 hi hv, key he h2' hj (hp' ▸ hw)⟩

/-- Five increasing momenta, two modes: every type of interpolation can be made. -/
def fiveCode : CodeData := ⟨5, 2, 1, fun j => j, 1, 1, 1, fun _ k j => k + j⟩

/-- The premises on the CODE distributions are met with every type. -/
example (itype : Int) (h0 : 0 ≤ itype) (h6 : itype ≤ 6) : GoCodes ⟨2, 1, fun i => i + 1, fun _ _ => fiveCode⟩ 0 itype := by
  refine ⟨fun i _ => ⟨by norm_num [fiveCode], by norm_num [fiveCode], by norm_num [fiveCode], by norm_num [fiveCode]⟩, fun i _ => by norm_num [fiveCode], fun i _ => by norm_num [fiveCode],
    fun i _ => ⟨?_, by norm_num [fiveCode], fun j _ => by norm_num [fiveCode, CodeData.p]⟩, fun i _ => by norm_num [fiveCode]⟩
  have : itype = 0 ∨ itype = 1 ∨ itype = 2 ∨ itype = 3 ∨ itype = 4 ∨ itype = 5 ∨ itype = 6 := by omega
  rcases this with rfl | rfl | rfl | rfl | rfl | rfl | rfl
  · exact ⟨2, rfl, by norm_num [fiveCode]⟩
  · exact ⟨3, rfl, by norm_num [fiveCode]⟩
  · exact ⟨3, rfl, by norm_num [fiveCode]⟩
  · exact ⟨3, rfl, by norm_num [fiveCode]⟩
  · exact ⟨5, rfl, by norm_num [fiveCode]⟩
  · exact ⟨5, rfl, by norm_num [fiveCode]⟩
  · exact ⟨3, rfl, by norm_num [fiveCode]⟩

end

end Softlib
