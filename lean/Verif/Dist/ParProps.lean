/-
C105: clones of CODE distributions evaluated by several threads at once.
-/
import Verif.Dist.ParModel
import Verif.Dist.CodeProps

namespace Softlib.Dist

variable {K : Type} [Field K] [LinearOrder K]

/-- What holds of the object while an evaluation is at `pc`. -/
def PcOk (c : Code K) (p xi : K) : EvalPc K → Prop
  | .start => CacheValid c
  | .w0 => min c.p0 c.pN ≤ p ∧ p ≤ max c.p0 c.pN
  | .w1 => (min c.p0 c.pN ≤ p ∧ p ≤ max c.p0 c.pN) ∧ c.leg[0]? = some 1
  | .rec1 k i => (min c.p0 c.pN ≤ p ∧ p ≤ max c.p0 c.pN) ∧ i + 2 + k = c.modes.length ∧ ∀ j, j < i + 2 → c.leg[j]? = some (legP xi j)
  | .rec2 k i u => (min c.p0 c.pN ≤ p ∧ p ≤ max c.p0 c.pN) ∧ i + 3 + k = c.modes.length ∧
      (∀ j, j < i + 2 → c.leg[j]? = some (legP xi j)) ∧ u = legP xi (i + 1)
  | .rec3 k i u v => (min c.p0 c.pN ≤ p ∧ p ≤ max c.p0 c.pN) ∧ i + 3 + k = c.modes.length ∧
      (∀ j, j < i + 2 → c.leg[j]? = some (legP xi j)) ∧ u = legP xi (i + 1) ∧ v = legP xi i
  | .wx => (min c.p0 c.pN ≤ p ∧ p ≤ max c.p0 c.pN) ∧ ∀ j, j < c.modes.length → c.leg[j]? = some (legP xi j)
  | .sum i sgn s => (min c.p0 c.pN ≤ p ∧ p ≤ max c.p0 c.pN) ∧ c.xileg = some xi ∧ CacheValid c ∧ i ≤ c.modes.length ∧ sgn = (-1) ^ i ∧
      s = ∑ j ∈ Finset.range i, (c.modes.map fun f => f p).getD j 0 * legP xi j * (-1) ^ j
  | .dead => False

/-- Steps left at most. -/
def EvalPc.left (n : Nat) : EvalPc K → Nat
  | .start => 4 * n + 8
  | .w0 => 4 * n + 7
  | .w1 => 4 * n + 6
  | .rec1 k _ => 3 * k + n + 4
  | .rec2 k _ _ => 3 * k + n + 6
  | .rec3 k _ _ _ => 3 * k + n + 5
  | .wx => n + 3
  | .sum i _ _ => n - i + 1
  | .dead => 0

theorem leg_of_all {c : Code K} (h : CodeOk c) (xi : K) (ha : ∀ j, j < c.modes.length → c.leg[j]? = some (legP xi j)) :
    c.leg = (List.range c.modes.length).map (legP xi) := by
  apply List.ext_getElem?
  intro l
  by_cases hl : l < c.modes.length
  · rw [ha l hl, List.getElem?_map, List.getElem?_range hl]; rfl
  · rw [List.getElem?_eq_none (by have := h.len; omega), List.getElem?_eq_none (by simp; omega)]

variable [CharZero K]

/-- One step of an evaluation that has the object to itself. -/
theorem evalStep_ok (c : Code K) (h : CodeOk c) (p xi : K) (pc : EvalPc K) (hpc : PcOk c p xi pc) :
    (∃ c' pc', evalStep c p xi pc = .next c' pc' ∧ CodeOk c' ∧ PcOk c' p xi pc' ∧ c'.modes = c.modes ∧ c'.p0 = c.p0 ∧ c'.pN = c.pN ∧
      pc'.left c.modes.length < pc.left c.modes.length) ∨
    (evalStep c p xi pc = .ret (codeValue c p xi) ∧ CacheValid c) := by
  have hlen := h.len
  have htwo := h.two
  cases pc with
  | start =>
    simp only [evalStep, pmax_eq, pmin_eq]
    by_cases hp : p > max c.p0 c.pN ∨ p < min c.p0 c.pN
    · right
      rw [if_pos hp]
      refine ⟨?_, hpc⟩
      simp only [codeValue]
      rw [if_pos (by rcases hp with hp | hp; exacts [Or.inr hp, Or.inl hp])]
    · left
      rw [if_neg hp]
      have hr : min c.p0 c.pN ≤ p ∧ p ≤ max c.p0 c.pN :=
        ⟨not_lt.mp fun hc => hp (Or.inr hc), not_lt.mp fun hc => hp (Or.inl hc)⟩
      by_cases hx : c.xileg = some xi
      · rw [if_pos hx]
        exact ⟨c, _, rfl, h, ⟨hr, hx, hpc, Nat.zero_le _, by simp, by simp⟩, rfl, rfl, rfl, by simp only [EvalPc.left]; omega⟩
      · rw [if_neg hx]
        exact ⟨c, _, rfl, h, hr, rfl, rfl, rfl, by simp only [EvalPc.left]; omega⟩
  | w0 =>
    left
    have h0 : 0 < c.leg.length := by omega
    refine ⟨{ c with leg := c.leg.set 0 1 }, .w1, ?_, ⟨by simpa using hlen, htwo⟩, ⟨hpc, ?_⟩, rfl, rfl, rfl, by simp only [EvalPc.left]; omega⟩
    · simp only [evalStep, writeLeg, setAt, if_pos h0]
    · exact List.getElem?_set_self h0
  | w1 =>
    left
    obtain ⟨hr, h0⟩ := hpc
    have h1 : 1 < c.leg.length := by omega
    refine ⟨{ c with leg := c.leg.set 1 xi }, .rec1 (c.modes.length - 2) 0, ?_, ⟨by simpa using hlen, htwo⟩,
      ⟨hr, by dsimp only; omega, ?_⟩, rfl, rfl, rfl, by simp only [EvalPc.left]; omega⟩
    · simp only [evalStep, writeLeg, setAt, if_pos h1]
      rw [if_pos (by omega)]
    · intro j hj
      rcases j with _ | _ | j
      · dsimp only
        rw [List.getElem?_set_ne (by omega), h0]; rfl
      · dsimp only
        rw [List.getElem?_set_self h1]; rfl
      · omega
  | rec1 k i =>
    left
    obtain ⟨hr, hk, hj⟩ := hpc
    cases k with
    | zero =>
      exact ⟨c, .wx, rfl, h, ⟨hr, fun j hj' => hj j (by omega)⟩, rfl, rfl, rfl, by simp only [EvalPc.left]; omega⟩
    | succ k =>
      refine ⟨c, .rec2 k i (legP xi (i + 1)), ?_, h, ⟨hr, by omega, hj, rfl⟩, rfl, rfl, rfl, by simp only [EvalPc.left]; omega⟩
      simp only [evalStep, hj (i + 1) (by omega)]
  | rec2 k i u =>
    left
    obtain ⟨hr, hk, hj, hu⟩ := hpc
    refine ⟨c, .rec3 k i u (legP xi i), ?_, h, ⟨hr, hk, hj, hu, rfl⟩, rfl, rfl, rfl, by simp only [EvalPc.left]; omega⟩
    simp only [evalStep, hj i (by omega)]
  | rec3 k i u v =>
    left
    obtain ⟨hr, hk, hj, hu, hv⟩ := hpc
    have hlt : i + 2 < c.leg.length := by omega
    have hval : (2 * ((i : K) + 1) + 1) / ((i : K) + 1 + 1) * xi * u - ((i : K) + 1) / ((i : K) + 1 + 1) * v = legP xi (i + 2) := by
      rw [hu, hv]
      have h2 := cast_ne (K := K) i
      have h3 : (i : K) + 1 + 1 = (i : K) + 2 := by ring
      rw [h3]
      simp only [legP]
      field_simp
      ring
    refine ⟨{ c with leg := c.leg.set (i + 2) (legP xi (i + 2)) }, .rec1 k (i + 1), ?_, ⟨by simpa using hlen, htwo⟩,
      ⟨hr, by dsimp only; omega, ?_⟩, rfl, rfl, rfl, by simp only [EvalPc.left]; omega⟩
    · simp only [evalStep, writeLeg, hval, setAt, if_pos hlt]
    · intro j hj'
      dsimp only
      by_cases hj2 : j = i + 2
      · subst hj2
        rw [List.getElem?_set_self hlt]
      · rw [List.getElem?_set_ne (by omega)]
        exact hj j (by omega)
  | wx =>
    left
    obtain ⟨hr, hj⟩ := hpc
    refine ⟨{ c with xileg := some xi }, .sum 0 1 0, rfl, ⟨hlen, htwo⟩, ⟨hr, rfl, ?_, Nat.zero_le _, by simp, by simp⟩, rfl, rfl, rfl,
      by simp only [EvalPc.left]; omega⟩
    intro y hy
    simp only [Option.some.injEq] at hy
    subst hy
    exact leg_of_all h xi hj
  | sum i sgn s =>
    obtain ⟨hr, hx, hv, hi, hsg, hs⟩ := hpc
    have hl := hv xi hx
    by_cases hii : i = c.modes.length
    · right
      have : c.modes[i]? = none := List.getElem?_eq_none (by omega)
      simp only [evalStep, this]
      refine ⟨?_, hv⟩
      congr 1
      simp only [codeValue]
      rw [if_neg (show ¬(p < min c.p0 c.pN ∨ max c.p0 c.pN < p) by
        rintro (h | h); exacts [absurd hr.1 (not_le.mpr h), absurd hr.2 (not_le.mpr h)])]
      have hsum : s = legSum (c.modes.map fun f => f p) xi := by
        rw [hs, hii]
        simp only [legSum, List.length_map]
      rw [← hsum]
      split
      · rename_i h; rw [max_eq_left h]
      · rename_i h; rw [max_eq_right (le_of_lt (not_le.mp h))]
    · left
      have hlt : i < c.modes.length := by omega
      have e1 : c.modes[i]? = some c.modes[i] := List.getElem?_eq_getElem hlt
      have e2 : c.leg[i]? = some (legP xi i) := by
        rw [hl, List.getElem?_map, List.getElem?_range hlt]; rfl
      refine ⟨c, .sum (i + 1) (-sgn) (s + c.modes[i] p * legP xi i * sgn), ?_, h,
        ⟨hr, hx, hv, by omega, ?_, ?_⟩, rfl, rfl, rfl, by simp only [EvalPc.left]; omega⟩
      · simp only [evalStep, e1, e2]
      · rw [hsg, pow_succ]; ring
      · rw [Finset.sum_range_succ, ← hs, ← hsg]
        congr 3
        rw [List.getD_eq_getElem?_getD, List.getElem?_map, e1]
        rfl
  | dead => exact hpc.elim

/-- What holds of thread `k`, with the objects as they are; `objs0` and `tasks` are what it began with. -/
structure ThreadOk (owner : Nat → Nat) (objs0 : Nat → Code K) (tasks : Nat → List (Nat × K × K)) (s : ParState K) (k : Nat) : Prop where
  own : ∀ e ∈ tasks k, owner e.1 = k
  split : ∃ pre, tasks k = pre ++ ((s.threads k).cur.map Prod.fst).toList ++ (s.threads k).todo ∧
    (s.threads k).out = pre.map fun e => codeValue (objs0 e.1) e.2.1 e.2.2
  pc : ∀ e pc, (s.threads k).cur = some (e, pc) → PcOk (s.objs e.1) e.2.1 e.2.2 pc
  rest : ∀ o, owner o = k → (∀ e pc, (s.threads k).cur = some (e, pc) → e.1 ≠ o) → CacheValid (s.objs o)

/-- What holds of all objects. -/
structure ObjsOk (objs0 : Nat → Code K) (s : ParState K) : Prop where
  ok : ∀ o, CodeOk (s.objs o)
  modes : ∀ o, (s.objs o).modes = (objs0 o).modes
  p0 : ∀ o, (s.objs o).p0 = (objs0 o).p0
  pN : ∀ o, (s.objs o).pN = (objs0 o).pN

/-- The steps a thread has left at most. -/
def stepsLeft (objs0 : Nat → Code K) (t : EvalThread K) : Nat :=
  (t.todo.map fun e => 4 * (objs0 e.1).modes.length + 10).sum +
    (match t.cur with
    | none => 0
    | some (e, pc) => pc.left (objs0 e.1).modes.length + 1)

theorem codeValue_congr {c c0 : Code K} (h1 : c.modes = c0.modes) (h2 : c.p0 = c0.p0) (h3 : c.pN = c0.pN) (p xi : K) :
    codeValue c p xi = codeValue c0 p xi := by
  simp only [codeValue, h1, h2, h3]

theorem setFn_self {α : Type} (f : Nat → α) (i : Nat) (x : α) : setFn f i x i = x := if_pos rfl

theorem setFn_ne {α : Type} (f : Nat → α) (i j : Nat) (x : α) (h : j ≠ i) : setFn f i x j = f j := if_neg h

theorem parStep_ok (owner : Nat → Nat) (objs0 : Nat → Code K) (tasks : Nat → List (Nat × K × K)) (s : ParState K)
    (ho : ObjsOk objs0 s) (ht : ∀ k, ThreadOk owner objs0 tasks s k) (k : Nat) :
    ObjsOk objs0 (parStep s k) ∧ (∀ j, ThreadOk owner objs0 tasks (parStep s k) j) ∧
      (∀ j, j ≠ k → (parStep s k).threads j = s.threads j) ∧
      (0 < stepsLeft objs0 (s.threads k) → stepsLeft objs0 ((parStep s k).threads k) < stepsLeft objs0 (s.threads k)) := by
  have hk := ht k
  obtain ⟨pre, hpre, hout⟩ := hk.split
  have hpc := hk.pc
  have hrest := hk.rest
  unfold parStep
  dsimp only
  generalize hT : s.threads k = T at hpre hout hpc hrest ⊢
  obtain ⟨todo, cur, out⟩ := T
  dsimp only at hpre hout hpc hrest ⊢
  cases cur with
  | none =>
    cases todo with
    | nil =>
      refine ⟨ho, ht, fun _ _ => rfl, fun h => ?_⟩
      simp [stepsLeft] at h
    | cons e es =>
      dsimp only
      refine ⟨⟨ho.ok, ho.modes, ho.p0, ho.pN⟩, ?_, fun j hj => setFn_ne _ _ _ _ hj, fun _ => ?_⟩
      · intro j
        by_cases hj : j = k
        · subst hj
          refine ⟨hk.own, ⟨pre, ?_, ?_⟩, ?_, ?_⟩
          · simp only [setFn_self, Option.map_some, Option.toList_some]
            rw [hpre]
            simp
          · simp only [setFn_self]
            exact hout
          · intro e' pc' h
            simp only [setFn_self, Option.some.injEq, Prod.mk.injEq] at h
            obtain ⟨rfl, rfl⟩ := h
            exact hrest e.1 (hk.own e (by rw [hpre]; simp)) (by intro _ _ h; cases h)
          · intro o hoo _
            exact hrest o hoo (by intro _ _ h; cases h)
        · have hj' := ht j
          refine ⟨hj'.own, ?_, ?_, ?_⟩
          · simp only [setFn_ne _ _ _ _ hj]; exact hj'.split
          · simp only [setFn_ne _ _ _ _ hj]; exact hj'.pc
          · simp only [setFn_ne _ _ _ _ hj]; exact hj'.rest
      · simp only [setFn_self, stepsLeft, List.map_cons, List.sum_cons, EvalPc.left]
        omega
  | some q =>
    obtain ⟨e, pc⟩ := q
    dsimp only
    have howe : owner e.1 = k := hk.own e (by rw [hpre]; simp)
    have hothers : ∀ (s' : ParState K), s'.objs = s.objs ∨ (∃ c, s'.objs = setFn s.objs e.1 c) → (∀ j, j ≠ k → s'.threads j = s.threads j) →
        ∀ j, j ≠ k → ThreadOk owner objs0 tasks s' j := by
      intro s' hob hth j hj
      have hj' := ht j
      have hobj : ∀ o, owner o = j → s'.objs o = s.objs o := by
        intro o hoo
        rcases hob with hob | ⟨c, hob⟩
        · rw [hob]
        · rw [hob, setFn_ne]
          rintro rfl
          exact hj (hoo.symm.trans howe)
      refine ⟨hj'.own, ?_, ?_, ?_⟩
      · rw [hth j hj]; exact hj'.split
      · rw [hth j hj]
        intro e' pc' h'
        obtain ⟨pre', hpre', -⟩ := hj'.split
        rw [hobj e'.1 (hj'.own e' (by rw [hpre', h']; simp))]
        exact hj'.pc e' pc' h'
      · rw [hth j hj]
        intro o hoo hne
        rw [hobj o hoo]
        exact hj'.rest o hoo hne
    rcases evalStep_ok (s.objs e.1) (ho.ok e.1) e.2.1 e.2.2 pc (hpc e pc rfl) with
      ⟨c', pc', he, hok, hpc', hm, h0, hN, hleft⟩ | ⟨he, hv⟩
    · rw [he]
      dsimp only
      refine ⟨⟨?_, ?_, ?_, ?_⟩, ?_, fun j hj => setFn_ne _ _ _ _ hj, fun _ => ?_⟩
      · intro o
        by_cases ho' : o = e.1
        · subst ho'; dsimp only; rw [setFn_self]; exact hok
        · dsimp only; rw [setFn_ne _ _ _ _ ho']; exact ho.ok o
      · intro o
        by_cases ho' : o = e.1
        · subst ho'; dsimp only; rw [setFn_self, hm]; exact ho.modes _
        · dsimp only; rw [setFn_ne _ _ _ _ ho']; exact ho.modes o
      · intro o
        by_cases ho' : o = e.1
        · subst ho'; dsimp only; rw [setFn_self, h0]; exact ho.p0 _
        · dsimp only; rw [setFn_ne _ _ _ _ ho']; exact ho.p0 o
      · intro o
        by_cases ho' : o = e.1
        · subst ho'; dsimp only; rw [setFn_self, hN]; exact ho.pN _
        · dsimp only; rw [setFn_ne _ _ _ _ ho']; exact ho.pN o
      · intro j
        by_cases hj : j = k
        · subst hj
          refine ⟨hk.own, ⟨pre, ?_, ?_⟩, ?_, ?_⟩
          · simp only [setFn_self]
            exact hpre
          · simp only [setFn_self]
            exact hout
          · intro e' pc'' h
            simp only [setFn_self, Option.some.injEq, Prod.mk.injEq] at h
            obtain ⟨rfl, rfl⟩ := h
            dsimp only
            rw [setFn_self]
            exact hpc'
          · intro o hoo hne
            simp only [setFn_self] at hne
            have h1 := hne e pc' rfl
            dsimp only
            rw [setFn_ne _ _ _ _ (Ne.symm h1)]
            refine hrest o hoo fun e' pc'' h => ?_
            injection h with h
            injection h with h h'
            rw [← h]
            exact h1
        · exact hothers _ (Or.inr ⟨c', rfl⟩) (fun j hj => setFn_ne _ _ _ _ hj) j hj
      · simp only [setFn_self, stepsLeft]
        have := ho.modes e.1
        rw [this] at hleft
        omega
    · rw [he]
      dsimp only
      refine ⟨⟨ho.ok, ho.modes, ho.p0, ho.pN⟩, ?_, fun j hj => setFn_ne _ _ _ _ hj, fun _ => ?_⟩
      · intro j
        by_cases hj : j = k
        · subst hj
          refine ⟨hk.own, ⟨pre ++ [e], ?_, ?_⟩, ?_, ?_⟩
          · simp only [setFn_self, Option.map_none, Option.toList_none, List.append_nil]
            rw [hpre]
            simp
          · simp only [setFn_self, List.map_append, List.map_cons, List.map_nil]
            rw [hout, codeValue_congr (ho.modes e.1) (ho.p0 e.1) (ho.pN e.1)]
          · intro e' pc'' h
            simp only [setFn_self] at h
            cases h
          · intro o hoo _
            by_cases ho' : o = e.1
            · subst ho'; exact hv
            · refine hrest o hoo fun e' pc'' h => ?_
              injection h with h
              injection h with h h'
              rw [← h]
              exact fun hc => ho' hc.symm
        · exact hothers ⟨s.objs, setFn s.threads k _⟩ (Or.inl rfl) (fun j hj => setFn_ne _ _ _ _ hj) j hj
      · simp only [setFn_self, stepsLeft]
        omega

theorem parRun_ok (owner : Nat → Nat) (objs0 : Nat → Code K) (tasks : Nat → List (Nat × K × K)) (sched : List Nat) :
    ∀ s, ObjsOk objs0 s → (∀ k, ThreadOk owner objs0 tasks s k) →
      ObjsOk objs0 (parRun s sched) ∧ (∀ k, ThreadOk owner objs0 tasks (parRun s sched) k) ∧
      ∀ k, stepsLeft objs0 (s.threads k) ≤ sched.count k → stepsLeft objs0 ((parRun s sched).threads k) = 0 := by
  induction sched with
  | nil =>
    intro s ho ht
    exact ⟨ho, ht, fun k hk => by simpa [parRun] using hk⟩
  | cons i sched ih =>
    intro s ho ht
    obtain ⟨h1, h2, h3, h4⟩ := parStep_ok owner objs0 tasks s ho ht i
    obtain ⟨h5, h6, h7⟩ := ih (parStep s i) h1 h2
    refine ⟨h5, h6, fun k hk => h7 k ?_⟩
    by_cases hki : k = i
    · subst hki
      rw [List.count_cons_self] at hk
      by_cases hz : 0 < stepsLeft objs0 (s.threads k)
      · have := h4 hz
        omega
      · have hz' : stepsLeft objs0 (s.threads k) = 0 := by omega
        have : (parStep s k).threads k = s.threads k := by
          unfold stepsLeft at hz'
          unfold parStep
          dsimp only
          generalize hT : s.threads k = T at hz' ⊢
          obtain ⟨todo, cur, out⟩ := T
          cases cur with
          | some q => obtain ⟨e, pc⟩ := q; simp at hz'
          | none =>
            cases todo with
            | nil => exact hT
            | cons e es => simp at hz'
        rw [this, hz']
        exact Nat.zero_le _
    · rw [h3 k hki]
      rw [List.count_cons_of_ne (Ne.symm hki)] at hk
      exact hk

/-- Where an evaluation can be that finds its pitch remembered. -/
def EvalPc.cached : EvalPc K → Bool
  | .start => true
  | .sum _ _ _ => true
  | _ => false

omit [CharZero K] in
/-- An evaluation at the remembered pitch writes nothing. -/
theorem evalStep_cached (c : Code K) (h : CodeOk c) (hv : CacheValid c) (p xi : K) (hx : c.xileg = some xi) (pc : EvalPc K)
    (hca : pc.cached = true) (hpc : PcOk c p xi pc) :
    (∃ pc', evalStep c p xi pc = .next c pc' ∧ pc'.cached = true ∧ PcOk c p xi pc') ∨ evalStep c p xi pc = .ret (codeValue c p xi) := by
  cases pc with
  | start =>
    simp only [evalStep, pmax_eq, pmin_eq]
    by_cases hp : p > max c.p0 c.pN ∨ p < min c.p0 c.pN
    · right
      rw [if_pos hp]
      simp only [codeValue]
      rw [if_pos (by rcases hp with hp | hp; exacts [Or.inr hp, Or.inl hp])]
    · left
      rw [if_neg hp, if_pos hx]
      exact ⟨_, rfl, rfl, ⟨not_lt.mp fun hc => hp (Or.inr hc), not_lt.mp fun hc => hp (Or.inl hc)⟩, hx, hv, Nat.zero_le _, by simp, by simp⟩
  | sum i sgn s =>
    obtain ⟨hr, hx, hv, hi, hsg, hs⟩ := hpc
    have hl := hv xi hx
    by_cases hii : i = c.modes.length
    · right
      have : c.modes[i]? = none := List.getElem?_eq_none (by omega)
      simp only [evalStep, this]
      congr 1
      simp only [codeValue]
      rw [if_neg (show ¬(p < min c.p0 c.pN ∨ max c.p0 c.pN < p) by
        rintro (h | h); exacts [absurd hr.1 (not_le.mpr h), absurd hr.2 (not_le.mpr h)])]
      have hsum : s = legSum (c.modes.map fun f => f p) xi := by
        rw [hs, hii]
        simp only [legSum, List.length_map]
      rw [← hsum]
      split
      · rename_i h; rw [max_eq_left h]
      · rename_i h; rw [max_eq_right (le_of_lt (not_le.mp h))]
    · left
      have hlt : i < c.modes.length := by omega
      have e1 : c.modes[i]? = some c.modes[i] := List.getElem?_eq_getElem hlt
      have e2 : c.leg[i]? = some (legP xi i) := by
        rw [hl, List.getElem?_map, List.getElem?_range hlt]; rfl
      refine ⟨.sum (i + 1) (-sgn) (s + c.modes[i] p * legP xi i * sgn), ?_, rfl, hr, hx, hv, by omega, ?_, ?_⟩
      · simp only [evalStep, e1, e2]
      · rw [hsg, pow_succ]; ring
      · rw [Finset.sum_range_succ, ← hs, ← hsg]
        congr 3
        rw [List.getD_eq_getElem?_getD, List.getElem?_map, e1]
        rfl
  | w0 => cases hca
  | w1 => cases hca
  | rec1 => cases hca
  | rec2 => cases hca
  | rec3 => cases hca
  | wx => cases hca
  | dead => cases hca

/-- What holds of all threads when every evaluation is at the remembered pitch. -/
structure SharedOk (objs0 : Nat → Code K) (tasks : Nat → List (Nat × K × K)) (s : ParState K) : Prop where
  same : s.objs = objs0
  split : ∀ k, ∃ pre, tasks k = pre ++ ((s.threads k).cur.map Prod.fst).toList ++ (s.threads k).todo ∧
    (s.threads k).out = pre.map fun e => codeValue (objs0 e.1) e.2.1 e.2.2
  pc : ∀ k e pc, (s.threads k).cur = some (e, pc) → pc.cached = true ∧ PcOk (objs0 e.1) e.2.1 e.2.2 pc

omit [CharZero K] in
theorem parRun_shared (objs0 : Nat → Code K) (tasks : Nat → List (Nat × K × K)) (hok : ∀ o, CodeOk (objs0 o))
    (hv : ∀ o, CacheValid (objs0 o)) (hx : ∀ k, ∀ e ∈ tasks k, (objs0 e.1).xileg = some e.2.2) (sched : List Nat) :
    ∀ s, SharedOk objs0 tasks s → SharedOk objs0 tasks (parRun s sched) := by
  induction sched with
  | nil => intro s h; exact h
  | cons k sched ih =>
    intro s h
    refine ih _ ?_
    obtain ⟨pre, hpre, hout⟩ := h.split k
    have hpc := h.pc k
    have hsame := h.same
    have step : ∀ t : EvalThread K, (∃ pre, tasks k = pre ++ (t.cur.map Prod.fst).toList ++ t.todo ∧
          t.out = pre.map fun e => codeValue (objs0 e.1) e.2.1 e.2.2) →
        (∀ e pc, t.cur = some (e, pc) → pc.cached = true ∧ PcOk (objs0 e.1) e.2.1 e.2.2 pc) →
        SharedOk objs0 tasks ⟨objs0, setFn s.threads k t⟩ := by
      intro t h1 h2
      refine ⟨rfl, ?_, ?_⟩
      · intro j
        dsimp only
        by_cases hj : j = k
        · subst hj; rw [setFn_self]; exact h1
        · rw [setFn_ne _ _ _ _ hj]; exact h.split j
      · intro j
        dsimp only
        by_cases hj : j = k
        · subst hj; rw [setFn_self]; exact h2
        · rw [setFn_ne _ _ _ _ hj]; exact h.pc j
    unfold parStep
    dsimp only
    rw [hsame]
    generalize hT : s.threads k = T at hpre hout hpc ⊢
    obtain ⟨todo, cur, out⟩ := T
    dsimp only at hpre hout hpc ⊢
    cases cur with
    | none =>
      cases todo with
      | nil => exact h
      | cons e es =>
        refine step _ ⟨pre, ?_, hout⟩ ?_
        · rw [hpre]; simp
        · intro e' pc' h'
          simp only [Option.some.injEq, Prod.mk.injEq] at h'
          obtain ⟨rfl, rfl⟩ := h'
          exact ⟨rfl, hv e.1⟩
    | some q =>
      obtain ⟨e, pc⟩ := q
      dsimp only
      obtain ⟨h1, h2⟩ := hpc e pc rfl
      have hxe := hx k e (by rw [hpre]; simp)
      rcases evalStep_cached (objs0 e.1) (hok e.1) (hv e.1) e.2.1 e.2.2 hxe pc h1 h2 with ⟨pc', he, h3, h4⟩ | he
      · rw [he]
        dsimp only
        have : setFn objs0 e.1 (objs0 e.1) = objs0 := by
          funext o
          by_cases ho : o = e.1
          · subst ho; rw [setFn_self]
          · rw [setFn_ne _ _ _ _ ho]
        rw [this]
        refine step _ ⟨pre, hpre, hout⟩ ?_
        intro e' pc'' h'
        simp only [Option.some.injEq, Prod.mk.injEq] at h'
        obtain ⟨rfl, rfl⟩ := h'
        exact ⟨h3, h4⟩
      · rw [he]
        dsimp only
        refine step _ ⟨pre ++ [e], ?_, ?_⟩ ?_
        · rw [hpre]; simp
        · simp only [List.map_append, List.map_cons, List.map_nil, hout]
        · intro e' pc'' h'
          cases h'

end Softlib.Dist

namespace Softlib

open Dist

variable {K : Type} [Field K] [LinearOrder K] [CharZero K]

/-- Threads that evaluate their own clones do not disturb each other.  Every object is a clone (its array
of Legendre values has any contents) of a distribution with at least two modes, and belongs to one
thread; the threads evaluate their objects in any order and at any points.  Whatever the schedule,
nothing undefined happens, the values returned so far are the values of the distribution, and a thread
that was scheduled often enough has returned all of them. -/
theorem C105_clones (owner : Nat → Nat) (p0 pN : Nat → K) (modes : Nat → List (K → K)) (garbage : Nat → List K)
    (hg : ∀ o, (garbage o).length = (modes o).length) (h2 : ∀ o, 2 ≤ (modes o).length)
    (tasks : Nat → List (Nat × K × K)) (hown : ∀ k, ∀ e ∈ tasks k, owner e.1 = k) (sched : List Nat) (k : Nat) :
    let objs := fun o => Code.new (p0 o) (pN o) (modes o) (garbage o)
    let t := (parRun (parStart objs tasks) sched).threads k
    let right := (tasks k).map fun e => codeValue (objs e.1) e.2.1 e.2.2
    t.out <+: right ∧ (∀ e, t.cur ≠ some (e, .dead)) ∧
      (((tasks k).map fun e => 4 * (modes e.1).length + 10).sum ≤ sched.count k → t.out = right) := by
  intro objs t right
  have ho : ObjsOk objs (parStart objs tasks) := ⟨fun o => ⟨hg o, h2 o⟩, fun _ => rfl, fun _ => rfl, fun _ => rfl⟩
  have ht : ∀ k, ThreadOk owner objs tasks (parStart objs tasks) k := fun k =>
    ⟨hown k, ⟨[], by simp [parStart], rfl⟩, fun _ _ h => by (cases h), fun o _ _ y hy => by (cases hy)⟩
  obtain ⟨h5, h6, h7⟩ := parRun_ok owner objs tasks sched _ ho ht
  obtain ⟨pre, hp, hout⟩ := (h6 k).split
  have hout : t.out = pre.map fun e => codeValue (objs e.1) e.2.1 e.2.2 := hout
  refine ⟨?_, ?_, ?_⟩
  · rw [hout]
    have : right = (pre.map fun e => codeValue (objs e.1) e.2.1 e.2.2) ++
        ((((parRun (parStart objs tasks) sched).threads k).cur.map Prod.fst).toList ++
          ((parRun (parStart objs tasks) sched).threads k).todo).map fun e => codeValue (objs e.1) e.2.1 e.2.2 := by
      rw [← List.map_append, ← List.append_assoc, ← hp]
    rw [this]
    exact List.prefix_append _ _
  · intro e he
    exact (h6 k).pc e .dead he
  · intro hc
    have hz := h7 k (by simp only [parStart, stepsLeft, Nat.add_zero]; exact hc)
    have hT : ((parRun (parStart objs tasks) sched).threads k).cur = none ∧ ((parRun (parStart objs tasks) sched).threads k).todo = [] := by
      unfold stepsLeft at hz
      generalize (parRun (parStart objs tasks) sched).threads k = T at hz ⊢
      obtain ⟨todo, cur, out⟩ := T
      cases cur with
      | some q => obtain ⟨e, pc⟩ := q; simp at hz
      | none =>
        cases todo with
        | nil => exact ⟨rfl, rfl⟩
        | cons e es => simp at hz
    rw [hT.1, hT.2] at hp
    simp only [Option.map_none, Option.toList_none, List.append_nil] at hp
    rw [hout]
    simp only [right, hp]

omit [CharZero K] in
/-- One object may be used by several threads as long as all evaluate at the pitch the object remembers:
then nothing is written and every value returned is right, whatever the schedule. -/
theorem C105_same_pitch (objs : Nat → Code K) (hlen : ∀ o, (objs o).leg.length = (objs o).modes.length ∧ 2 ≤ (objs o).modes.length)
    (hc : ∀ o y, (objs o).xileg = some y → (objs o).leg = (List.range (objs o).modes.length).map (legP y))
    (tasks : Nat → List (Nat × K × K)) (hx : ∀ k, ∀ e ∈ tasks k, (objs e.1).xileg = some e.2.2) (sched : List Nat) (k : Nat) :
    (parRun (parStart objs tasks) sched).objs = objs ∧
      ((parRun (parStart objs tasks) sched).threads k).out <+: (tasks k).map fun e => codeValue (objs e.1) e.2.1 e.2.2 := by
  have h := parRun_shared objs tasks (fun o => ⟨(hlen o).1, (hlen o).2⟩) hc hx sched (parStart objs tasks)
    ⟨rfl, fun k => ⟨[], by simp [parStart], rfl⟩, fun _ _ _ h => by (cases h)⟩
  refine ⟨h.same, ?_⟩
  obtain ⟨pre, hp, hout⟩ := h.split k
  rw [hout, hp, List.append_assoc, List.map_append]
  exact List.prefix_append _ _

/-- Two threads with one object: each evaluates once, at the same momentum and at pitches 1/2 and -1/2;
with this schedule the first returns the value that belongs to the pitch of the second.  (A data race, so
undefined behaviour in C++.) -/
theorem C105_shared :
    let c : Code ℚ := Code.new 0 1 [fun _ => 1, fun _ => 1] [0, 0]
    let tasks : Nat → List (Nat × ℚ × ℚ) := fun k => if k = 0 then [(0, 1 / 2, 1 / 2)] else if k = 1 then [(0, 1 / 2, -1 / 2)] else []
    ∃ sched : List Nat, ((parRun (parStart (fun _ => c) tasks) sched).threads 0).out = [3 / 2] ∧
      codeValue c (1 / 2) (1 / 2) = 1 / 2 := by
  refine ⟨[0, 0, 0, 0, 0, 0, 1, 1, 1, 1, 0, 0, 0], ?_, ?_⟩
  · decide +kernel
  · decide +kernel

/-- Two threads with a clone each, evaluating at different pitches. -/
example :
    let objs : Nat → Code ℚ := fun _ => Code.new 0 1 [fun _ => 1, fun _ => 1] [7, 7]
    let tasks : Nat → List (Nat × ℚ × ℚ) := fun k => if k = 0 then [(0, 1 / 2, 1 / 2)] else if k = 1 then [(1, 1 / 2, -1 / 2)] else []
    (∀ k, ∀ e ∈ tasks k, (if e.1 = 0 then 0 else 1) = k) ∧
    ((parRun (parStart objs tasks) [0, 1, 0, 1, 0, 1, 0, 1, 0, 1, 0, 1, 0, 1, 0, 1, 0, 1]).threads 0).out = [1 / 2] ∧
    ((parRun (parStart objs tasks) [0, 1, 0, 1, 0, 1, 0, 1, 0, 1, 0, 1, 0, 1, 0, 1, 0, 1]).threads 1).out = [3 / 2] := by
  refine ⟨?_, by decide +kernel, by decide +kernel⟩
  intro k e he
  dsimp only at he
  split at he
  · simp only [List.mem_singleton] at he; subst he; simp_all
  · split at he
    · simp only [List.mem_singleton] at he; subst he; simp_all
    · simp at he

end Softlib
