/-
C128: several threads may ask one magnetic field about its radii and its domain.

Source: /repo/src/MagneticField/MagneticField2D.cpp 141-249, 337-340; see `QueryModel.lean`.
-/
import Verif.Magnetic.QueryModel
import Mathlib.Tactic.Linarith
import Mathlib.Tactic.NormNum

namespace Softlib

open Magnetic

/-! ### What is kept by every step -/

/-- The points found are `r0` and perhaps one more; `mx` and `mn` are the largest and the smallest. -/
def QPts (r0 : ℝ) (xs : List ℝ) (mx mn : ℝ) : Prop :=
  (xs = [] ∧ mx = r0 ∧ mn = r0) ∨ ∃ y, xs = [y] ∧ mx = max r0 y ∧ mn = min r0 y

def MaxSet (r0 mx : ℝ) (o : QObj) : Prop := o.maxr = r0 ∨ o.maxr = mx
def MinSet (r0 mn : ℝ) (o : QObj) : Prop := o.minr = r0 ∨ o.minr = mn

/-- What holds of the object at all times. -/
structure QObjOk (c : Contour) (r0 mx mn : ℝ) (o : QObj) : Prop where
  max : o.maxr = -1 ∨ MaxSet r0 mx o
  min : o.minr = -1 ∨ MinSet r0 mn o
  box : o.bset = true → ∀ j < 4, o.b j = c.box j

/-- What holds for a thread inside a call. -/
def QPcOk (c : Contour) (r0 : ℝ) (xs : List ℝ) (mx mn : ℝ) (o : QObj) (q : QOp) : QPc → Prop
  | .start => True
  | .reread => (q = .getMax ∧ MaxSet r0 mx o) ∨ (q = .getMin ∧ MinSet r0 mn o)
  | .wmax0 x ys => q ≠ .bounds ∧ x = r0 ∧ ys = xs
  | .wmin0 x ys => q ≠ .bounds ∧ x = r0 ∧ ys = xs ∧ MaxSet r0 mx o
  | .cmpMax ys => q ≠ .bounds ∧ (ys = xs ∨ ys = []) ∧ MaxSet r0 mx o ∧ MinSet r0 mn o
  | .wmax y ys => q ≠ .bounds ∧ y :: ys = xs ∧ r0 < y ∧ MaxSet r0 mx o ∧ MinSet r0 mn o
  | .cmpMin y ys => q ≠ .bounds ∧ y :: ys = xs ∧ MaxSet r0 mx o ∧ MinSet r0 mn o
  | .wmin y ys => q ≠ .bounds ∧ y :: ys = xs ∧ y < r0 ∧ MaxSet r0 mx o ∧ MinSet r0 mn o
  | .readMax => q ≠ .bounds ∧ MaxSet r0 mx o ∧ MinSet r0 mn o
  | .readMin => (q = .getMin ∨ q = .findMin) ∧ MaxSet r0 mx o ∧ MinSet r0 mn o
  | .rb i acc => q = .bounds ∧ i < 4 ∧ o.bset = true ∧ acc = (List.range i).map c.box
  | .wb i => q = .bounds ∧ i < 4 ∧ ∀ j < i, o.b j = c.box j
  | .wset => q = .bounds ∧ ∀ j < 4, o.b j = c.box j
  | .dead => False

/-- What a call may return when others are in progress. -/
def QOutOk (c : Contour) (r0 mx mn : ℝ) : QOp × Option (List ℝ) → Prop
  | (.getMax, v) => v = some [r0] ∨ v = some [mx]
  | (.findMax, v) => v = some [r0] ∨ v = some [mx]
  | (.getMin, v) => v = some [r0] ∨ v = some [mn]
  | (.findMin, v) => v = some [r0] ∨ v = some [mn]
  | (.bounds, v) => v = some [c.box 0, c.box 1, c.box 2, c.box 3]

/-- What is never undone. -/
structure QMono (c : Contour) (r0 mx mn : ℝ) (o o' : QObj) : Prop where
  max : MaxSet r0 mx o → MaxSet r0 mx o'
  min : MinSet r0 mn o → MinSet r0 mn o'
  set : o.bset = true → o'.bset = true
  box : ∀ j, o.b j = c.box j → o'.b j = c.box j

theorem QMono.rfl' (c : Contour) (r0 mx mn : ℝ) (o : QObj) : QMono c r0 mx mn o o :=
  ⟨id, id, id, fun _ => id⟩

theorem QPcOk.mono {c : Contour} {r0 : ℝ} {xs : List ℝ} {mx mn : ℝ} {o o' : QObj} {q : QOp} {pc : QPc}
    (m : QMono c r0 mx mn o o') (h : QPcOk c r0 xs mx mn o q pc) : QPcOk c r0 xs mx mn o' q pc := by
  cases pc with
  | start => trivial
  | reread => exact h.imp (fun h => ⟨h.1, m.max h.2⟩) (fun h => ⟨h.1, m.min h.2⟩)
  | wmax0 x ys => exact h
  | wmin0 x ys => exact ⟨h.1, h.2.1, h.2.2.1, m.max h.2.2.2⟩
  | cmpMax ys => exact ⟨h.1, h.2.1, m.max h.2.2.1, m.min h.2.2.2⟩
  | wmax y ys => exact ⟨h.1, h.2.1, h.2.2.1, m.max h.2.2.2.1, m.min h.2.2.2.2⟩
  | cmpMin y ys => exact ⟨h.1, h.2.1, m.max h.2.2.1, m.min h.2.2.2⟩
  | wmin y ys => exact ⟨h.1, h.2.1, h.2.2.1, m.max h.2.2.2.1, m.min h.2.2.2.2⟩
  | readMax => exact ⟨h.1, m.max h.2.1, m.min h.2.2⟩
  | readMin => exact ⟨h.1, m.max h.2.1, m.min h.2.2⟩
  | rb i acc => exact ⟨h.1, h.2.1, m.set h.2.2.1, h.2.2.2⟩
  | wb i => exact ⟨h.1, h.2.1, fun j hj => m.box j (h.2.2 j hj)⟩
  | wset => exact ⟨h.1, fun j hj => m.box j (h.2 j hj)⟩
  | dead => exact h

/-- The largest radius is still to be written by this thread. -/
def PendMax : QPc → Prop
  | .wmin0 _ _ => True
  | .cmpMax ys => ys ≠ []
  | .wmax _ _ => True
  | _ => False

/-- The smallest radius is still to be written by this thread. -/
def PendMin : QPc → Prop
  | .cmpMax ys => ys ≠ []
  | .cmpMin _ _ => True
  | .wmin _ _ => True
  | _ => False

def PendSet : QPc → Prop
  | .wmin0 _ _ => True
  | _ => False

/-- What remains to be done, by this thread (`p`) or others (`E`, `F`, `G`). -/
structure QPend (r0 mx mn : ℝ) (o : QObj) (p1 p2 p3 E F G : Prop) : Prop where
  max : MaxSet r0 mx o → o.maxr = mx ∨ p1 ∨ E
  min : MinSet r0 mn o → o.minr = mn ∨ p2 ∨ F
  set : MaxSet r0 mx o → MinSet r0 mn o ∨ p3 ∨ G
  back : MinSet r0 mn o → MaxSet r0 mx o

/-- The outcome of a step is right. -/
def QStepOk (c : Contour) (r0 : ℝ) (xs : List ℝ) (mx mn : ℝ) (o : QObj) (q : QOp) (E F G : Prop) : QStep → Prop
  | .next o' pc => QObjOk c r0 mx mn o' ∧ QPcOk c r0 xs mx mn o' q pc ∧ QMono c r0 mx mn o o' ∧
      QPend r0 mx mn o' (PendMax pc) (PendMin pc) (PendSet pc) E F G
  | .ret o' v => QObjOk c r0 mx mn o' ∧ QOutOk c r0 mx mn (q, some v) ∧ QMono c r0 mx mn o o' ∧
      QPend r0 mx mn o' False False False E F G
  | .throws => False

theorem qStep_ok {c : Contour} {r0 : ℝ} {xs : List ℝ} {mx mn : ℝ} (hc : c.pts = some (r0 :: xs))
    (hx : QPts r0 xs mx mn) (hpos : 0 < mn) {o : QObj} {q : QOp} {pc : QPc} {E F G : Prop}
    (g : QObjOk c r0 mx mn o) (h : QPcOk c r0 xs mx mn o q pc)
    (p : QPend r0 mx mn o (PendMax pc) (PendMin pc) (PendSet pc) E F G) :
    QStepOk c r0 xs mx mn o q E F G (qStep c o q pc) := by
  have hle : mn ≤ r0 ∧ r0 ≤ mx := by
    rcases hx with ⟨_, h1, h2⟩ | ⟨y, _, h1, h2⟩
    · rw [h1, h2]; exact ⟨le_refl _, le_refl _⟩
    · rw [h1, h2]; exact ⟨min_le_left _ _, le_max_left _ _⟩
  have rf := QMono.rfl' c r0 mx mn o
  have drop : ∀ pc', (PendMax pc → PendMax pc') → (PendMin pc → PendMin pc') → (PendSet pc → PendSet pc') →
      QPend r0 mx mn o (PendMax pc') (PendMin pc') (PendSet pc') E F G := fun pc' a b d =>
    ⟨fun z => (p.max z).imp id (Or.imp a id), fun z => (p.min z).imp id (Or.imp b id),
      fun z => (p.set z).imp id (Or.imp d id), p.back⟩
  have find : pc = .start → q ≠ .bounds → QStepOk c r0 xs mx mn o q E F G (qFind c o) := by
    intro e hq
    subst e
    rw [qFind, hc]
    exact ⟨g, ⟨hq, rfl, rfl⟩, rf, drop _ id id id⟩
  cases pc with
  | start =>
    cases q with
    | getMax =>
      rw [qStep]
      split_ifs with hm
      · exact ⟨g, Or.inl ⟨rfl, g.max.resolve_left (by intro e; rw [e] at hm; norm_num at hm)⟩, rf, drop _ id id id⟩
      · exact find rfl (by decide)
    | getMin =>
      rw [qStep]
      split_ifs with hm
      · exact ⟨g, Or.inr ⟨rfl, g.min.resolve_left (by intro e; rw [e] at hm; norm_num at hm)⟩, rf, drop _ id id id⟩
      · exact find rfl (by decide)
    | findMax => exact find rfl (by decide)
    | findMin => exact find rfl (by decide)
    | bounds =>
      rw [qStep]
      split_ifs with hm
      · exact ⟨g, ⟨rfl, by norm_num, hm, rfl⟩, rf, drop _ id id id⟩
      · exact ⟨g, ⟨rfl, by norm_num, fun j hj => absurd hj (Nat.not_lt_zero j)⟩, rf, drop _ id id id⟩
  | reread =>
    have pp : QPend r0 mx mn o False False False E F G := ⟨p.max, p.min, p.set, p.back⟩
    rcases h with ⟨rfl, hs⟩ | ⟨rfl, hs⟩
    · exact ⟨g, hs.imp (fun e => by rw [e]) (fun e => by rw [e]), rf, pp⟩
    · exact ⟨g, hs.imp (fun e => by rw [e]) (fun e => by rw [e]), rf, pp⟩
  | wmax0 x ys =>
    obtain ⟨hq, rfl, rfl⟩ := h
    exact ⟨⟨Or.inr (Or.inl rfl), g.min, g.box⟩, ⟨hq, rfl, rfl, Or.inl rfl⟩,
      ⟨fun _ => Or.inl rfl, id, id, fun _ => id⟩,
      ⟨fun _ => Or.inr (Or.inl trivial), fun z => (p.min z).imp id (Or.imp (fun a => a.elim) id),
        fun _ => Or.inr (Or.inl trivial), fun _ => Or.inl rfl⟩⟩
  | wmin0 x ys =>
    obtain ⟨hq, rfl, rfl, hs⟩ := h
    refine ⟨⟨g.max, Or.inr (Or.inl rfl), g.box⟩, ⟨hq, Or.inl rfl, hs, Or.inl rfl⟩,
      ⟨id, fun _ => Or.inl rfl, id, fun _ => id⟩, ⟨fun z => ?_, fun _ => ?_, fun _ => Or.inl (Or.inl rfl), fun _ => hs⟩⟩
    · rcases hx with ⟨_, h1, _⟩ | ⟨y, h1, _⟩
      · left
        rcases hs with e | e
        · rw [h1]; exact e
        · exact e
      · right; left; rw [h1]; exact List.cons_ne_nil _ _
    · rcases hx with ⟨_, _, h1⟩ | ⟨y, h1, _⟩
      · left; exact h1.symm
      · right; left; rw [h1]; exact List.cons_ne_nil _ _
  | cmpMax ys =>
    obtain ⟨hq, hy, hs, ht⟩ := h
    cases ys with
    | nil =>
      exact ⟨g, ⟨hq, hs, ht⟩, rf, drop _ (fun a => a rfl) (fun a => a rfl) id⟩
    | cons y ys =>
      have hy' := hy.resolve_right (List.cons_ne_nil _ _)
      rcases hx with ⟨h1, _⟩ | ⟨y', h1, h2, h3⟩
      · rw [h1] at hy'; exact absurd hy' (List.cons_ne_nil _ _)
      rw [h1] at hy'
      obtain ⟨rfl, rfl⟩ := List.cons.inj hy'
      have low : r0 ≤ o.maxr := by rcases hs with e | e <;> rw [e]; exact hle.2
      rw [qStep]
      split_ifs with hm
      · have hr : r0 < y := lt_of_le_of_lt low hm
        refine ⟨g, ⟨hq, h1.symm, hr, hs, ht⟩, rf, ⟨fun _ => Or.inr (Or.inl trivial), fun _ => Or.inl ?_, fun _ => Or.inl ht, p.back⟩⟩
        rcases ht with e | e
        · rw [e, h3, min_eq_left hr.le]
        · exact e
      · refine ⟨g, ⟨hq, h1.symm, hs, ht⟩, rf, ⟨fun _ => Or.inl ?_, fun _ => Or.inr (Or.inl trivial), fun _ => Or.inl ht, p.back⟩⟩
        rcases hs with e | e
        · rw [e] at hm; rw [e, h2, max_eq_left (not_lt.mp hm)]
        · exact e
  | wmax y ys =>
    obtain ⟨hq, hy, hr, hs, ht⟩ := h
    rcases hx with ⟨h1, _⟩ | ⟨y', h1, h2, h3⟩
    · rw [h1] at hy; exact absurd hy (List.cons_ne_nil _ _)
    rw [h1] at hy
    obtain ⟨rfl, rfl⟩ := List.cons.inj hy
    have e : y = mx := by rw [h2, max_eq_right hr.le]
    exact ⟨⟨Or.inr (Or.inr e), g.min, g.box⟩, ⟨hq, Or.inr rfl, Or.inr e, ht⟩, ⟨fun _ => Or.inr e, id, id, fun _ => id⟩,
      ⟨fun _ => Or.inl e, fun z => (p.min z).imp id (Or.imp (fun a => a.elim) id), fun _ => Or.inl ht, fun _ => Or.inr e⟩⟩
  | cmpMin y ys =>
    obtain ⟨hq, hy, hs, ht⟩ := h
    have hy0 := hy
    rcases hx with ⟨h1, _⟩ | ⟨y', h1, h2, h3⟩
    · rw [h1] at hy; exact absurd hy (List.cons_ne_nil _ _)
    rw [h1] at hy
    obtain ⟨rfl, rfl⟩ := List.cons.inj hy
    have low : o.minr ≤ r0 := by rcases ht with e | e <;> rw [e]; exact hle.1
    rw [qStep]
    split_ifs with hm
    · exact ⟨g, ⟨hq, hy0, lt_of_lt_of_le hm low, hs, ht⟩, rf, drop _ (fun a => a.elim) (fun _ => trivial) id⟩
    · refine ⟨g, ⟨hq, Or.inr rfl, hs, ht⟩, rf, ⟨fun z => (p.max z).imp id (Or.imp (fun a => a.elim) id), fun _ => Or.inl ?_, fun _ => Or.inl ht, p.back⟩⟩
      rcases ht with e | e
      · rw [e] at hm; rw [e, h3, min_eq_left (not_lt.mp hm)]
      · exact e
  | wmin y ys =>
    obtain ⟨hq, hy, hr, hs, ht⟩ := h
    rcases hx with ⟨h1, _⟩ | ⟨y', h1, h2, h3⟩
    · rw [h1] at hy; exact absurd hy (List.cons_ne_nil _ _)
    rw [h1] at hy
    obtain ⟨rfl, rfl⟩ := List.cons.inj hy
    have e : y = mn := by rw [h3, min_eq_right hr.le]
    exact ⟨⟨g.max, Or.inr (Or.inr e), g.box⟩, ⟨hq, Or.inr rfl, hs, Or.inr e⟩, ⟨id, fun _ => Or.inr e, id, fun _ => id⟩,
      ⟨fun z => (p.max z).imp id (Or.imp (fun a => a.elim) id), fun _ => Or.inl e, fun _ => Or.inl (Or.inr e), fun _ => hs⟩⟩
  | readMax =>
    obtain ⟨hq, hs, ht⟩ := h
    have pp : QPend r0 mx mn o False False False E F G := ⟨p.max, p.min, p.set, p.back⟩
    cases q with
    | getMax => exact ⟨g, hs.imp (fun e => by rw [e]) (fun e => by rw [e]), rf, pp⟩
    | findMax => exact ⟨g, hs.imp (fun e => by rw [e]) (fun e => by rw [e]), rf, pp⟩
    | getMin => exact ⟨g, ⟨Or.inl rfl, hs, ht⟩, rf, pp⟩
    | findMin => exact ⟨g, ⟨Or.inr rfl, hs, ht⟩, rf, pp⟩
    | bounds => exact absurd rfl hq
  | readMin =>
    obtain ⟨hq, hs, ht⟩ := h
    have pp : QPend r0 mx mn o False False False E F G := ⟨p.max, p.min, p.set, p.back⟩
    rcases hq with rfl | rfl
    · exact ⟨g, ht.imp (fun e => by rw [e]) (fun e => by rw [e]), rf, pp⟩
    · exact ⟨g, ht.imp (fun e => by rw [e]) (fun e => by rw [e]), rf, pp⟩
  | rb i acc =>
    obtain ⟨rfl, hi, hb, ha⟩ := h
    have pp : QPend r0 mx mn o False False False E F G := ⟨p.max, p.min, p.set, p.back⟩
    have e : acc ++ [o.b i] = (List.range (i + 1)).map c.box := by
      rw [ha, g.box hb i hi, List.range_succ, List.map_append]; rfl
    rw [qStep]
    split_ifs with h3
    · exact ⟨g, ⟨rfl, by omega, hb, e⟩, rf, pp⟩
    · have : i = 3 := by omega
      subst this
      refine ⟨g, ?_, rf, pp⟩
      show some _ = some _
      rw [e]; rfl
  | wb i =>
    obtain ⟨rfl, hi, hb⟩ := h
    have pp : QPend r0 mx mn { o with b := fun j => if j = i then c.box i else o.b j } False False False E F G :=
      ⟨p.max, p.min, p.set, p.back⟩
    have m : ∀ j, o.b j = c.box j → (if j = i then c.box i else o.b j) = c.box j := by
      intro j hj
      by_cases e : j = i
      · rw [if_pos e, e]
      · rw [if_neg e, hj]
    have up : ∀ j < i + 1, (if j = i then c.box i else o.b j) = c.box j := by
      intro j hj
      by_cases e : j = i
      · rw [if_pos e, e]
      · exact m j (hb j (by omega))
    have gg : QObjOk c r0 mx mn { o with b := fun j => if j = i then c.box i else o.b j } :=
      ⟨g.max, g.min, fun z j hj => m j (g.box z j hj)⟩
    rw [qStep]
    split_ifs with h3
    · exact ⟨gg, ⟨rfl, by omega, up⟩, ⟨id, id, id, m⟩, pp⟩
    · exact ⟨gg, ⟨rfl, fun j hj => up j (by omega)⟩, ⟨id, id, id, m⟩, pp⟩
  | wset =>
    obtain ⟨rfl, hb⟩ := h
    exact ⟨⟨g.max, g.min, fun _ => hb⟩, rfl, ⟨id, id, fun _ => rfl, fun _ => id⟩, ⟨p.max, p.min, p.set, p.back⟩⟩
  | dead => exact h.elim

/-- Some thread other than `k` is at a place where `P` holds. -/
def Elsewhere (s : QState) (k : Nat) (P : QPc → Prop) : Prop :=
  ∃ j, j ≠ k ∧ ∃ q pc, (s.th j).cur = some (q, pc) ∧ P pc

/-- Some thread is at a place where `P` holds. -/
def Somewhere (s : QState) (P : QPc → Prop) : Prop := ∃ j q pc, (s.th j).cur = some (q, pc) ∧ P pc

/-- What holds in every reachable state. -/
structure QInv (c : Contour) (r0 : ℝ) (xs : List ℝ) (mx mn : ℝ) (s : QState) : Prop where
  obj : QObjOk c r0 mx mn s.obj
  pc : ∀ k q pc, (s.th k).cur = some (q, pc) → QPcOk c r0 xs mx mn s.obj q pc
  out : ∀ k, ∀ e ∈ (s.th k).out, QOutOk c r0 mx mn e
  pend : QPend r0 mx mn s.obj False False False (Somewhere s PendMax) (Somewhere s PendMin) (Somewhere s PendSet)

theorem QState.put_self (s : QState) (o : QObj) (k : Nat) (t : QThread) : (s.put o k t).th k = t := if_pos rfl
theorem QState.put_ne (s : QState) (o : QObj) {k j : Nat} (t : QThread) (h : j ≠ k) : (s.put o k t).th j = s.th j :=
  if_neg h

/-- The invariant after thread `k` has been replaced. -/
theorem QInv.put {c : Contour} {r0 : ℝ} {xs : List ℝ} {mx mn : ℝ} {s : QState} (I : QInv c r0 xs mx mn s)
    {o : QObj} {k : Nat} {t : QThread} (g : QObjOk c r0 mx mn o) (m : QMono c r0 mx mn s.obj o)
    (ht : ∀ q pc, t.cur = some (q, pc) → QPcOk c r0 xs mx mn o q pc)
    (ho : ∀ e ∈ t.out, QOutOk c r0 mx mn e)
    (hp : QPend r0 mx mn o (∃ q pc, t.cur = some (q, pc) ∧ PendMax pc) (∃ q pc, t.cur = some (q, pc) ∧ PendMin pc)
      (∃ q pc, t.cur = some (q, pc) ∧ PendSet pc) (Elsewhere s k PendMax) (Elsewhere s k PendMin) (Elsewhere s k PendSet)) :
    QInv c r0 xs mx mn (s.put o k t) := by
  have sw : ∀ P, ((∃ q pc, t.cur = some (q, pc) ∧ P pc) ∨ Elsewhere s k P) → (False ∨ Somewhere (s.put o k t) P) := by
    rintro P (⟨q, pc, h, hP⟩ | ⟨j, hj, q, pc, h, hP⟩)
    · exact Or.inr ⟨k, q, pc, by rw [QState.put_self]; exact h, hP⟩
    · exact Or.inr ⟨j, q, pc, by rw [QState.put_ne _ _ _ hj]; exact h, hP⟩
  refine ⟨g, fun j q pc h => ?_, fun j e h => ?_, ⟨fun z => (hp.max z).imp id (sw _), fun z => (hp.min z).imp id (sw _),
    fun z => (hp.set z).imp id (sw _), hp.back⟩⟩
  · by_cases hj : j = k
    · subst hj; rw [QState.put_self] at h; exact ht q pc h
    · rw [QState.put_ne _ _ _ hj] at h; exact (I.pc j q pc h).mono m
  · by_cases hj : j = k
    · subst hj; rw [QState.put_self] at h; exact ho e h
    · rw [QState.put_ne _ _ _ hj] at h; exact I.out j e h

theorem QInv.step {c : Contour} {r0 : ℝ} {xs : List ℝ} {mx mn : ℝ} (hc : c.pts = some (r0 :: xs))
    (hx : QPts r0 xs mx mn) (hpos : 0 < mn) {s : QState} (I : QInv c r0 xs mx mn s) (k : Nat) :
    QInv c r0 xs mx mn (qThreadStep c s k) := by
  have away : ∀ P, (s.th k).cur = none → Somewhere s P → Elsewhere s k P := by
    rintro P hn ⟨j, q, pc, h, hP⟩
    refine ⟨j, ?_, q, pc, h, hP⟩
    rintro rfl
    rw [hn] at h; exact absurd h (by simp)
  rw [qThreadStep]
  cases hcur : (s.th k).cur with
  | none =>
    cases htodo : (s.th k).todo with
    | nil => exact I
    | cons q rest =>
      refine I.put I.obj (QMono.rfl' ..) ?_ (I.out k) ⟨fun z => (I.pend.max z).imp id (Or.imp (fun a => a.elim) (away _ hcur)),
        fun z => (I.pend.min z).imp id (Or.imp (fun a => a.elim) (away _ hcur)),
        fun z => (I.pend.set z).imp id (Or.imp (fun a => a.elim) (away _ hcur)), I.pend.back⟩
      intro q' pc' h
      injection h with h
      injection h with _ h
      subst h; trivial
  | some qp =>
    obtain ⟨q, pc⟩ := qp
    have split : ∀ P : QPc → Prop, (False ∨ Somewhere s P) → (P pc ∨ Elsewhere s k P) := by
      rintro P (h | ⟨j, q', pc', h, hP⟩)
      · exact h.elim
      · by_cases hj : j = k
        · subst hj
          rw [hcur] at h
          injection h with h
          injection h with _ h
          subst h; exact Or.inl hP
        · exact Or.inr ⟨j, hj, q', pc', h, hP⟩
    have ok := qStep_ok (E := Elsewhere s k PendMax) (F := Elsewhere s k PendMin) (G := Elsewhere s k PendSet)
      hc hx hpos I.obj (I.pc k q pc hcur)
      ⟨fun z => (I.pend.max z).imp id (split _), fun z => (I.pend.min z).imp id (split _),
        fun z => (I.pend.set z).imp id (split _), I.pend.back⟩
    dsimp only
    cases hstep : qStep c s.obj q pc with
    | next o pc' =>
      rw [hstep] at ok
      obtain ⟨g, hpc, m, hp⟩ := ok
      refine I.put g m ?_ (I.out k) ⟨fun z => (hp.max z).imp id (Or.imp (fun a => ⟨q, pc', rfl, a⟩) id),
        fun z => (hp.min z).imp id (Or.imp (fun a => ⟨q, pc', rfl, a⟩) id),
        fun z => (hp.set z).imp id (Or.imp (fun a => ⟨q, pc', rfl, a⟩) id), hp.back⟩
      intro q'' pc'' h
      injection h with h
      injection h with h1 h2
      subst h1; subst h2; exact hpc
    | ret o v =>
      rw [hstep] at ok
      obtain ⟨g, ho, m, hp⟩ := ok
      refine I.put g m (fun _ _ h => absurd h (by simp)) ?_ ⟨fun z => (hp.max z).imp id (Or.imp (fun a => a.elim) id),
        fun z => (hp.min z).imp id (Or.imp (fun a => a.elim) id),
        fun z => (hp.set z).imp id (Or.imp (fun a => a.elim) id), hp.back⟩
      intro e he
      rcases List.mem_append.mp he with he | he
      · exact I.out k e he
      · rw [List.mem_singleton.mp he]; exact ho
    | throws => rw [hstep] at ok; exact ok.elim

theorem QInv.run {c : Contour} {r0 : ℝ} {xs : List ℝ} {mx mn : ℝ} (hc : c.pts = some (r0 :: xs))
    (hx : QPts r0 xs mx mn) (hpos : 0 < mn) (sched : List Nat) :
    ∀ {s : QState}, QInv c r0 xs mx mn s → QInv c r0 xs mx mn (qRun c s sched) := by
  induction sched with
  | nil => exact fun I => I
  | cons k ks ih => exact fun I => ih (I.step hc hx hpos k)

/-! ### The points of a contour -/

theorem rpointsLoop_two (za : ℝ) : ∀ (l : List Pt) (acc : List ℝ), acc.length ≤ 2 → (rpointsLoop za l acc).length ≤ 2
  | [], acc, h => by rw [rpointsLoop]; exact h; simp
  | [_], acc, h => by rw [rpointsLoop]; exact h; simp
  | v :: w :: rest, acc, h => by
    rw [rpointsLoop]
    split_ifs with h1 h2
    · exact rpointsLoop_two za (w :: rest) _ (by rw [List.length_append]; simpa using h1)
    · exact rpointsLoop_two za (w :: rest) _ h
    · exact h

theorem contour_points {axis : Pt} {dom : List Pt} {mx mn : ℝ} (h : findMaxRadius axis dom = .ok mx mn) :
    ∃ r0 xs, (Contour.of axis dom).pts = some (r0 :: xs) ∧ QPts r0 xs mx mn := by
  rw [findMaxRadius] at h
  show ∃ r0 xs, rpoints axis dom = some (r0 :: xs) ∧ _
  rw [rpoints]
  cases h1 : dom.head? with
  | none => rw [h1] at h; simp at h
  | some v0 =>
    cases h2 : dom.getLast? with
    | none => rw [h1, h2] at h; simp at h
    | some vl =>
      rw [h1, h2] at h
      dsimp only at h ⊢
      by_cases hs : spans axis.z vl v0
      · rw [if_pos hs] at h; simp at h
      · rw [if_neg hs] at h ⊢
        have hl := rpointsLoop_two axis.z dom [] (by simp)
        generalize rpointsLoop axis.z dom [] = l at h hl
        match l, hl with
        | [], _ => simp [rpointsResult] at h
        | [x], _ =>
          simp only [rpointsResult, maxMin, MaxRes.ok.injEq] at h
          exact ⟨x, [], rfl, Or.inl ⟨rfl, h.1.symm, h.2.symm⟩⟩
        | [x, y], _ =>
          refine ⟨x, [y], rfl, Or.inr ⟨y, rfl, ?_⟩⟩
          simp only [rpointsResult, maxMin] at h
          split_ifs at h with a b
          · simp only [MaxRes.ok.injEq] at h
            rw [max_eq_right a.le, min_eq_left a.le]; exact ⟨h.1.symm, h.2.symm⟩
          · simp only [MaxRes.ok.injEq] at h
            rw [max_eq_left b.le, min_eq_right b.le]; exact ⟨h.1.symm, h.2.symm⟩
          · simp only [MaxRes.ok.injEq] at h
            have e : x = y := le_antisymm (not_lt.mp b) (not_lt.mp a)
            subst e
            rw [max_self, min_self]; exact ⟨h.1.symm, h.2.symm⟩

/-- The rectangle of a domain, as `GetDomainBounds` returns it to the only thread. -/
noncomputable def boxList (axis : Pt) (dom : List Pt) : List ℝ :=
  let b := (getBounds ⟨axis, dom, false, ⟨0, 0, 0, 0⟩⟩).2
  [b.rmin, b.rmax, b.zmin, b.zmax]

theorem boxList_eq (axis : Pt) (dom : List Pt) :
    boxList axis dom = [(Contour.of axis dom).box 0, (Contour.of axis dom).box 1, (Contour.of axis dom).box 2,
      (Contour.of axis dom).box 3] := rfl

/-- What a call returns when no other thread is there. -/
noncomputable def qAlone (axis : Pt) (dom : List Pt) (mx mn : ℝ) : QOp → List ℝ
  | .getMax => [mx]
  | .findMax => [mx]
  | .getMin => [mn]
  | .findMin => [mn]
  | .bounds => boxList axis dom

/-- An object between calls: the radii are not known (as constructed) or right (as after `SetDomain`,
464), and the rectangle is not known or right. -/
structure QFresh (axis : Pt) (dom : List Pt) (mx mn : ℝ) (o : QObj) : Prop where
  radii : (o.maxr = -1 ∧ o.minr = -1) ∨ (o.maxr = mx ∧ o.minr = mn)
  box : o.bset = true → [o.b 0, o.b 1, o.b 2, o.b 3] = boxList axis dom

theorem QFresh.inv {axis : Pt} {dom : List Pt} {mx mn : ℝ} {o : QObj} (h : QFresh axis dom mx mn o) (hpos : 0 < mn)
    {r0 : ℝ} {xs : List ℝ} (hx : QPts r0 xs mx mn) (tasks : Nat → List QOp) :
    QInv (Contour.of axis dom) r0 xs mx mn (qStart o tasks) := by
  have hle : mn ≤ r0 := by
    rcases hx with ⟨_, _, h2⟩ | ⟨y, _, _, h2⟩
    · exact h2.le
    · rw [h2]; exact min_le_left _ _
  refine ⟨⟨h.radii.imp (·.1) (fun z => Or.inr z.1), h.radii.imp (·.2) (fun z => Or.inr z.2), ?_⟩,
    fun k q pc z => absurd z (by simp [qStart]), fun k e z => absurd z (by simp [qStart]), ?_⟩
  · intro hb j hj
    have e := h.box hb
    rw [boxList_eq] at e
    simp only [List.cons.injEq, and_true] at e
    obtain ⟨e0, e1, e2, e3⟩ := e
    match j, hj with
    | 0, _ => exact e0
    | 1, _ => exact e1
    | 2, _ => exact e2
    | 3, _ => exact e3
  · show QPend r0 mx mn o _ _ _ _ _ _
    rcases h.radii with ⟨h1, h2⟩ | ⟨h1, h2⟩
    · have n2 : ¬ MinSet r0 mn o := by
        rintro (e | e) <;> rw [h2] at e <;> linarith
      have n1 : ¬ MaxSet r0 mx o := by
        have : r0 ≤ mx := by
          rcases hx with ⟨_, h3, _⟩ | ⟨y, _, h3, _⟩
          · exact h3.ge
          · rw [h3]; exact le_max_left _ _
        rintro (e | e) <;> rw [h1] at e <;> linarith
      exact ⟨fun z => absurd z n1, fun z => absurd z n2, fun z => absurd z n1, fun z => absurd z n2⟩
    · exact ⟨fun _ => Or.inl h1, fun _ => Or.inl h2, fun _ => Or.inl (Or.inr h2), fun _ => Or.inr h1⟩

/-! ### C128 -/

/-- Whatever the number of threads, their calls and the order of their steps: a call of
`GetDomainBounds` returns the rectangle of the domain (accesses in one order for all threads). -/
theorem C128_bounds_partial {axis : Pt} {dom : List Pt} {mx mn : ℝ} (h : findMaxRadius axis dom = .ok mx mn)
    (hpos : 0 < mn) {o : QObj} (ho : QFresh axis dom mx mn o) (tasks : Nat → List QOp) (sched : List Nat) (k : Nat)
    (v : Option (List ℝ)) (hv : (.bounds, v) ∈ ((qRun (Contour.of axis dom) (qStart o tasks) sched).th k).out) :
    v = some (boxList axis dom) := by
  obtain ⟨r0, xs, hc, hx⟩ := contour_points h
  exact ((ho.inv hpos hx tasks).run hc hx hpos sched).out k _ hv

/-- A call for a radius returns the right one or the first crossing of the contour with the height of
the axis; no call throws.  In particular all are right when the contour crosses that height once. -/
theorem C128_radii_partial {axis : Pt} {dom : List Pt} {mx mn : ℝ} (h : findMaxRadius axis dom = .ok mx mn)
    (hpos : 0 < mn) {o : QObj} (ho : QFresh axis dom mx mn o) (tasks : Nat → List QOp) (sched : List Nat) (k : Nat)
    (q : QOp) (v : Option (List ℝ)) (hq : q ≠ .bounds)
    (hv : (q, v) ∈ ((qRun (Contour.of axis dom) (qStart o tasks) sched).th k).out) :
    v = some (qAlone axis dom mx mn q) ∨ ∃ r0, (rpointsLoop axis.z dom []).head? = some r0 ∧ v = some [r0] := by
  obtain ⟨r0, xs, hc, hx⟩ := contour_points h
  have hh : (rpointsLoop axis.z dom []).head? = some r0 := by
    have hc' : rpoints axis dom = some (r0 :: xs) := hc
    rw [rpoints] at hc'
    split at hc'
    · split_ifs at hc'
      injection hc' with hc'
      rw [hc']; rfl
    · simp at hc'
  have := ((ho.inv hpos hx tasks).run hc hx hpos sched).out k _ hv
  cases q with
  | bounds => exact absurd rfl hq
  | getMax => exact this.symm.imp id (fun e => ⟨r0, hh, e⟩)
  | getMin => exact this.symm.imp id (fun e => ⟨r0, hh, e⟩)
  | findMax => exact this.symm.imp id (fun e => ⟨r0, hh, e⟩)
  | findMin => exact this.symm.imp id (fun e => ⟨r0, hh, e⟩)

/-- When no call is in progress, what the object remembers is right. -/
theorem C128_settled_partial {axis : Pt} {dom : List Pt} {mx mn : ℝ} (h : findMaxRadius axis dom = .ok mx mn)
    (hpos : 0 < mn) {o : QObj} (ho : QFresh axis dom mx mn o) (tasks : Nat → List QOp) (sched : List Nat)
    (hend : ∀ k, ((qRun (Contour.of axis dom) (qStart o tasks) sched).th k).cur = none) :
    QFresh axis dom mx mn (qRun (Contour.of axis dom) (qStart o tasks) sched).obj := by
  obtain ⟨r0, xs, hc, hx⟩ := contour_points h
  have I := (ho.inv hpos hx tasks).run hc hx hpos sched
  generalize qRun (Contour.of axis dom) (qStart o tasks) sched = s at I hend
  have no : ∀ P, ¬ (False ∨ Somewhere s P) := by
    rintro P (z | ⟨j, q, pc, z, _⟩)
    · exact z
    · rw [hend j] at z; exact absurd z (by simp)
  refine ⟨?_, fun hb => ?_⟩
  · rcases I.obj.max with a | a
    · rcases I.obj.min with b | b
      · exact Or.inl ⟨a, b⟩
      · have a' := I.pend.back b
        exact Or.inr ⟨(I.pend.max a').resolve_right (no _), (I.pend.min b).resolve_right (no _)⟩
    · have b := (I.pend.set a).resolve_right (no _)
      exact Or.inr ⟨(I.pend.max a).resolve_right (no _), (I.pend.min b).resolve_right (no _)⟩
  · rw [boxList_eq, I.obj.box hb 0 (by norm_num), I.obj.box hb 1 (by norm_num), I.obj.box hb 2 (by norm_num),
      I.obj.box hb 3 (by norm_num)]

/-- What ended calls have left behind. -/
def QKept (r0 mx : ℝ) (s : QState) : Prop :=
  ∀ k, ∀ e ∈ (s.th k).out, (e.1 = .bounds → s.obj.bset = true) ∧ (e.1 ≠ .bounds → MaxSet r0 mx s.obj)

theorem QKept.step {c : Contour} {r0 : ℝ} {xs : List ℝ} {mx mn : ℝ} (hc : c.pts = some (r0 :: xs))
    (hx : QPts r0 xs mx mn) (hpos : 0 < mn) {s : QState} (I : QInv c r0 xs mx mn s) (K : QKept r0 mx s) (k : Nat) :
    QKept r0 mx (qThreadStep c s k) := by
  have put : ∀ (o : QObj) (t : QThread), QMono c r0 mx mn s.obj o →
      (∀ e ∈ t.out, (e.1 = .bounds → o.bset = true) ∧ (e.1 ≠ .bounds → MaxSet r0 mx o)) → QKept r0 mx (s.put o k t) := by
    intro o t m h j e he
    by_cases hj : j = k
    · subst hj; rw [QState.put_self] at he; exact h e he
    · rw [QState.put_ne _ _ _ hj] at he
      exact ⟨fun z => m.set ((K j e he).1 z), fun z => m.max ((K j e he).2 z)⟩
  have old : ∀ (o : QObj), QMono c r0 mx mn s.obj o → ∀ e ∈ (s.th k).out,
      (e.1 = .bounds → o.bset = true) ∧ (e.1 ≠ .bounds → MaxSet r0 mx o) := fun o m e he =>
    ⟨fun z => m.set ((K k e he).1 z), fun z => m.max ((K k e he).2 z)⟩
  rw [qThreadStep]
  cases hcur : (s.th k).cur with
  | none =>
    cases htodo : (s.th k).todo with
    | nil => exact K
    | cons q rest => exact put _ _ (QMono.rfl' ..) (K k)
  | some qp =>
    obtain ⟨q, pc⟩ := qp
    have hpc := I.pc k q pc hcur
    have ok := qStep_ok (E := True) (F := True) (G := True) hc hx hpos I.obj hpc
      ⟨fun _ => Or.inr (Or.inr trivial), fun _ => Or.inr (Or.inr trivial), fun _ => Or.inr (Or.inr trivial), I.pend.back⟩
    dsimp only
    cases hstep : qStep c s.obj q pc with
    | next o pc' => rw [hstep] at ok; exact put _ _ ok.2.2.1 (old o ok.2.2.1)
    | throws => rw [hstep] at ok; exact ok.elim
    | ret o v =>
      rw [hstep] at ok
      refine put _ _ ok.2.2.1 fun e he => ?_
      rcases List.mem_append.mp he with he | he
      · exact old o ok.2.2.1 e he
      · rw [List.mem_singleton.mp he]
        have m := ok.2.2.1
        cases pc with
        | reread =>
          rcases hpc with ⟨rfl, hs⟩ | ⟨rfl, hs⟩
          · exact ⟨fun z => absurd z (by simp), fun _ => m.max hs⟩
          · exact ⟨fun z => absurd z (by simp), fun _ => m.max (I.pend.back hs)⟩
        | readMax => exact ⟨fun z => absurd z hpc.1, fun _ => m.max hpc.2.1⟩
        | readMin => exact ⟨fun z => by rcases hpc.1 with e | e <;> rw [e] at z <;> exact absurd z (by simp), fun _ => m.max hpc.2.1⟩
        | rb i acc => exact ⟨fun _ => m.set hpc.2.2.1, fun z => absurd hpc.1 z⟩
        | wset =>
          simp only [qStep, QStep.ret.injEq] at hstep
          exact ⟨fun _ => by rw [← hstep.1], fun z => absurd hpc.1 z⟩
        | start =>
          cases q <;> simp only [qStep, qFind, hc] at hstep <;> (try split_ifs at hstep) <;> simp at hstep
        | cmpMax ys => cases ys <;> simp only [qStep] at hstep <;> (try split_ifs at hstep) <;> simp at hstep
        | wmax0 x ys => simp [qStep] at hstep
        | wmin0 x ys => simp [qStep] at hstep
        | wmax y ys => simp [qStep] at hstep
        | cmpMin y ys => simp only [qStep] at hstep; split_ifs at hstep
        | wmin y ys => simp [qStep] at hstep
        | wb j => simp [qStep] at hstep
        | dead => simp [qStep] at hstep

/-- What was computed is remembered: once a call for the rectangle has ended the rectangle is known, and
once a call for a radius has ended and none is in progress both radii are. -/
theorem C128_remembered_partial {axis : Pt} {dom : List Pt} {mx mn : ℝ} (h : findMaxRadius axis dom = .ok mx mn)
    (hpos : 0 < mn) {o : QObj} (ho : QFresh axis dom mx mn o) (tasks : Nat → List QOp) (sched : List Nat) (k : Nat)
    (q : QOp) (v : Option (List ℝ)) (hv : (q, v) ∈ ((qRun (Contour.of axis dom) (qStart o tasks) sched).th k).out) :
    (q = .bounds → (qRun (Contour.of axis dom) (qStart o tasks) sched).obj.bset = true) ∧
    (q ≠ .bounds → (∀ j, ((qRun (Contour.of axis dom) (qStart o tasks) sched).th j).cur = none) →
      (qRun (Contour.of axis dom) (qStart o tasks) sched).obj.maxr = mx ∧
      (qRun (Contour.of axis dom) (qStart o tasks) sched).obj.minr = mn) := by
  obtain ⟨r0, xs, hc, hx⟩ := contour_points h
  have main : ∀ (sched : List Nat) (s : QState), QInv (Contour.of axis dom) r0 xs mx mn s → QKept r0 mx s →
      QKept r0 mx (qRun (Contour.of axis dom) s sched) := by
    intro sched
    induction sched with
    | nil => exact fun _ _ K => K
    | cons i is ih => exact fun s I K => ih _ (I.step hc hx hpos i) (QKept.step hc hx hpos I K i)
  have K := main sched _ (ho.inv hpos hx tasks) (fun k e z => absurd z (by simp [qStart])) k _ hv
  refine ⟨K.1, fun hq hend => ?_⟩
  have F := C128_settled_partial h hpos ho tasks sched hend
  rcases F.radii with ⟨a, _⟩ | a
  · have hr : mn ≤ r0 ∧ r0 ≤ mx := by
      rcases hx with ⟨_, h1, h2⟩ | ⟨y, _, h1, h2⟩
      · rw [h1, h2]; exact ⟨le_refl _, le_refl _⟩
      · rw [h1, h2]; exact ⟨min_le_left _ _, le_max_left _ _⟩
    rcases K.2 hq with e | e <;> rw [a] at e <;> linarith [hr.1, hr.2]
  · exact a

/-- A thread that is the only one to make calls gets the right answers, whatever it asks. -/
theorem C128_alone {axis : Pt} {dom : List Pt} {mx mn : ℝ} (h : findMaxRadius axis dom = .ok mx mn)
    (hpos : 0 < mn) {o : QObj} (ho : QFresh axis dom mx mn o) (tasks : Nat → List QOp) (k : Nat)
    (hk : ∀ j, j ≠ k → tasks j = []) (sched : List Nat) (q : QOp) (v : Option (List ℝ))
    (hv : (q, v) ∈ ((qRun (Contour.of axis dom) (qStart o tasks) sched).th k).out) :
    v = some (qAlone axis dom mx mn q) := by
  obtain ⟨r0, xs, hc, hx⟩ := contour_points h
  have main : ∀ (sched : List Nat) (s : QState), QInv (Contour.of axis dom) r0 xs mx mn s →
      (∀ j, j ≠ k → (s.th j).cur = none ∧ (s.th j).todo = []) →
      (∀ e ∈ (s.th k).out, e.2 = some (qAlone axis dom mx mn e.1)) →
      ∀ e ∈ ((qRun (Contour.of axis dom) s sched).th k).out, e.2 = some (qAlone axis dom mx mn e.1) := by
    intro sched
    induction sched with
    | nil => exact fun s _ _ h3 => h3
    | cons i is ih =>
      intro s I h2 h3
      refine ih _ (I.step hc hx hpos i) ?_ ?_
      · intro j hj
        by_cases hi : i = k
        · subst hi
          have : (qThreadStep (Contour.of axis dom) s i).th j = s.th j := by
            rw [qThreadStep]
            split
            · split
              · rfl
              · exact QState.put_ne _ _ _ hj
            · split <;> exact QState.put_ne _ _ _ hj
          rw [this]; exact h2 j hj
        · have : qThreadStep (Contour.of axis dom) s i = s := by
            rw [qThreadStep, (h2 i hi).1, (h2 i hi).2]
          rw [this]; exact h2 j hj
      · by_cases hi : i = k
        · subst hi
          rw [qThreadStep]
          cases hcur : (s.th i).cur with
          | none =>
            cases htodo : (s.th i).todo with
            | nil => exact h3
            | cons q rest => dsimp only; rw [QState.put_self]; exact h3
          | some qp =>
            obtain ⟨q, pc⟩ := qp
            have only : ∀ P : QPc → Prop, ¬ P pc → ¬ (False ∨ Somewhere s P) := by
              rintro P hP (z | ⟨j, q', pc', z, hz⟩)
              · exact z
              · by_cases hj : j = i
                · subst hj
                  rw [hcur] at z
                  injection z with z
                  injection z with _ z
                  subst z; exact hP hz
                · rw [(h2 j hj).1] at z; exact absurd z (by simp)
            have hpc := I.pc i q pc hcur
            have ok := (I.step hc hx hpos i).out i
            rw [qThreadStep, hcur] at ok
            dsimp only at ok ⊢
            have big : ∀ o v, qStep (Contour.of axis dom) s.obj q pc = .ret o v → v = qAlone axis dom mx mn q := by
              intro o v hv
              cases pc with
              | reread =>
                rcases hpc with ⟨rfl, hs⟩ | ⟨rfl, hs⟩
                · simp only [qStep, QStep.ret.injEq] at hv
                  rw [← hv.2, (I.pend.max hs).resolve_right (only _ id)]; rfl
                · simp only [qStep, QStep.ret.injEq] at hv
                  rw [← hv.2, (I.pend.min hs).resolve_right (only _ id)]; rfl
              | readMax =>
                have e := (I.pend.max hpc.2.1).resolve_right (only _ id)
                cases q <;> simp only [qStep, QStep.ret.injEq, reduceCtorEq] at hv
                · rw [← hv.2, e]; rfl
                · rw [← hv.2, e]; rfl
                · exact absurd rfl hpc.1
              | readMin =>
                have e := (I.pend.min hpc.2.2).resolve_right (only _ id)
                simp only [qStep, QStep.ret.injEq] at hv
                rcases hpc.1 with rfl | rfl
                · rw [← hv.2, e]; rfl
                · rw [← hv.2, e]; rfl
              | rb j acc =>
                obtain ⟨rfl, _⟩ := hpc
                rw [hv] at ok
                dsimp only at ok
                rw [QState.put_self] at ok
                have := ok (.bounds, some v) (List.mem_append_right _ (List.mem_singleton.mpr rfl))
                exact Option.some.inj this
              | wset =>
                obtain ⟨rfl, _⟩ := hpc
                simp only [qStep, QStep.ret.injEq] at hv
                rw [← hv.2]; rfl
              | start =>
                cases q <;> simp only [qStep, qFind, hc] at hv <;> (try split_ifs at hv) <;> simp at hv
              | cmpMax ys => cases ys <;> simp only [qStep] at hv <;> (try split_ifs at hv) <;> simp at hv
              | wmax0 x ys => simp [qStep] at hv
              | wmin0 x ys => simp [qStep] at hv
              | wmax y ys => simp [qStep] at hv
              | cmpMin y ys => simp only [qStep] at hv; split_ifs at hv
              | wmin y ys => simp [qStep] at hv
              | wb j => simp [qStep] at hv
              | dead => simp [qStep] at hv
            cases hstep : qStep (Contour.of axis dom) s.obj q pc with
            | next o pc' => dsimp only; rw [QState.put_self]; exact h3
            | ret o v =>
              dsimp only
              rw [QState.put_self]
              intro e he
              rcases List.mem_append.mp he with he | he
              · exact h3 e he
              · rw [List.mem_singleton.mp he, big o v hstep]
            | throws =>
              rw [hstep] at ok
              dsimp only at ok
              rw [QState.put_self] at ok
              have := ok (q, none) (List.mem_append_right _ (List.mem_singleton.mpr rfl))
              cases q <;> simp [QOutOk] at this
        · have : qThreadStep (Contour.of axis dom) s i = s := by
            rw [qThreadStep, (h2 i hi).1, (h2 i hi).2]
          rw [this]; exact h3
  exact main sched _ (ho.inv hpos hx tasks) (fun j hj => ⟨rfl, hk j hj⟩) (fun e z => absurd z (by simp [qStart])) _ hv

/-- Once the radii and the rectangle are known, any number of threads may call the getters: nothing is
written, there is no data race, and all get the right answers. -/
theorem C128_warm_partial {axis : Pt} {dom : List Pt} {mx mn : ℝ} (hmx : 0 < mx) (hmn : 0 ≤ mn) {o : QObj}
    (h1 : o.maxr = mx) (h2 : o.minr = mn) (h3 : o.bset = true) (h4 : [o.b 0, o.b 1, o.b 2, o.b 3] = boxList axis dom)
    (tasks : Nat → List QOp) (ht : ∀ k, ∀ q ∈ tasks k, q ≠ .findMax ∧ q ≠ .findMin) (sched : List Nat) :
    (qRun (Contour.of axis dom) (qStart o tasks) sched).obj = o ∧
    ¬ QRace (qRun (Contour.of axis dom) (qStart o tasks) sched) ∧
    ∀ k q v, (q, v) ∈ ((qRun (Contour.of axis dom) (qStart o tasks) sched).th k).out →
      v = some (qAlone axis dom mx mn q) := by
  let Good : QOp → QPc → Prop := fun q pc => pc = .start ∨ (pc = .reread ∧ (q = .getMax ∨ q = .getMin)) ∨
    ∃ i, i < 4 ∧ pc = .rb i ((List.range i).map o.b) ∧ q = .bounds
  let W : QState → Prop := fun s => s.obj = o ∧ ∀ k, (∀ q ∈ (s.th k).todo, q ≠ .findMax ∧ q ≠ .findMin) ∧
    (∀ q pc, (s.th k).cur = some (q, pc) → (q ≠ .findMax ∧ q ≠ .findMin) ∧ Good q pc) ∧
    ∀ e ∈ (s.th k).out, e.2 = some (qAlone axis dom mx mn e.1)
  have put : ∀ s k t, W s → (∀ q ∈ t.todo, q ≠ .findMax ∧ q ≠ .findMin) →
      (∀ q pc, t.cur = some (q, pc) → (q ≠ .findMax ∧ q ≠ .findMin) ∧ Good q pc) →
      (∀ e ∈ t.out, e.2 = some (qAlone axis dom mx mn e.1)) → W (s.put o k t) := by
    intro s k t hW a b d
    refine ⟨rfl, fun j => ?_⟩
    by_cases hj : j = k
    · subst hj; rw [QState.put_self]; exact ⟨a, b, d⟩
    · rw [QState.put_ne _ _ _ hj]; exact hW.2 j
  have app : ∀ (l : List (QOp × Option (List ℝ))) e, (∀ e ∈ l, e.2 = some (qAlone axis dom mx mn e.1)) →
      e.2 = some (qAlone axis dom mx mn e.1) → ∀ e' ∈ l ++ [e], e'.2 = some (qAlone axis dom mx mn e'.1) := by
    intro l e a b e' he
    rcases List.mem_append.mp he with he | he
    · exact a e' he
    · rw [List.mem_singleton.mp he]; exact b
  have one : ∀ s k, W s → W (qThreadStep (Contour.of axis dom) s k) := by
    intro s k hW
    obtain ⟨hT, hC, hO⟩ := hW.2 k
    rw [qThreadStep]
    cases hcur : (s.th k).cur with
    | none =>
      cases htodo : (s.th k).todo with
      | nil => exact hW
      | cons q rest =>
        dsimp only
        rw [hW.1]
        rw [htodo] at hT
        refine put s k _ hW (fun q' z => hT q' (List.mem_cons_of_mem _ z)) ?_ hO
        intro q' pc' z
        injection z with z
        injection z with z1 z2
        subst z1; subst z2
        exact ⟨hT _ List.mem_cons_self, Or.inl rfl⟩
    | some qp =>
      obtain ⟨q, pc⟩ := qp
      obtain ⟨hq, hG⟩ := hC q pc hcur
      have go : ∀ pc', Good q pc' → W (s.put o k ⟨some (q, pc'), (s.th k).todo, (s.th k).out⟩) := by
        intro pc' hg
        refine put s k _ hW hT ?_ hO
        intro q' pc'' z
        injection z with z
        injection z with z1 z2
        subst z1; subst z2
        exact ⟨hq, hg⟩
      have fin : ∀ v, v = qAlone axis dom mx mn q →
          W (s.put o k ⟨none, (s.th k).todo, (s.th k).out ++ [(q, some v)]⟩) := fun v hv =>
        put s k _ hW hT (fun _ _ z => absurd z (by simp)) (app _ _ hO (by rw [hv]))
      dsimp only
      rw [hW.1]
      rcases hG with rfl | ⟨rfl, rfl | rfl⟩ | ⟨i, hi, rfl, rfl⟩
      · cases q with
        | getMax => rw [qStep, if_pos (by rw [h1]; exact hmx)]; exact go _ (Or.inr (Or.inl ⟨rfl, Or.inl rfl⟩))
        | getMin => rw [qStep, if_pos (by rw [h2]; exact hmn)]; exact go _ (Or.inr (Or.inl ⟨rfl, Or.inr rfl⟩))
        | findMax => exact absurd rfl hq.1
        | findMin => exact absurd rfl hq.2
        | bounds => rw [qStep, if_pos h3]; exact go _ (Or.inr (Or.inr ⟨0, by norm_num, rfl, rfl⟩))
      · exact fin _ (by rw [h1]; rfl)
      · exact fin _ (by rw [h2]; rfl)
      · have e : (List.range i).map o.b ++ [o.b i] = (List.range (i + 1)).map o.b := by
          rw [List.range_succ, List.map_append]; rfl
        rw [qStep, e]
        by_cases hi3 : i < 3
        · rw [if_pos hi3]; exact go _ (Or.inr (Or.inr ⟨i + 1, by omega, rfl, rfl⟩))
        · rw [if_neg hi3]
          have : i = 3 := by omega
          subst this
          exact fin _ h4
  have all : ∀ (sched : List Nat) s, W s → W (qRun (Contour.of axis dom) s sched) := by
    intro sched
    induction sched with
    | nil => exact fun _ z => z
    | cons k ks ih => exact fun s z => ih _ (one s k z)
  have hW := all sched (qStart o tasks) ⟨rfl, fun k => ⟨ht k, fun _ _ z => absurd z (by simp [qStart]),
    fun _ z => absurd z (by simp [qStart])⟩⟩
  refine ⟨hW.1, ?_, fun k q v hv => (hW.2 k).2.2 _ hv⟩
  have rd : ∀ k q pc l w, ((qRun (Contour.of axis dom) (qStart o tasks) sched).th k).cur = some (q, pc) →
      qAccess q pc = some (l, w) → w = false := by
    intro k q pc l w hcur ha
    rcases ((hW.2 k).2.1 q pc hcur).2 with rfl | ⟨rfl, rfl | rfl⟩ | ⟨i, _, rfl, rfl⟩
    · cases q <;> simp [qAccess] at ha <;> exact ha.2
    · simp [qAccess] at ha; exact ha.2
    · simp [qAccess] at ha; exact ha.2
    · simp [qAccess] at ha; exact ha.2
  rintro ⟨i, j, qi, pi, qj, pj, l, wi, wj, _, ci, cj, ai, aj, hw | hw⟩
  · rw [rd i qi pi l wi ci ai] at hw; exact absurd hw (by decide)
  · rw [rd j qj pj l wj cj aj] at hw; exact absurd hw (by decide)

/-! ### Calls are neither lost nor endless -/

theorem qThreadStep_other (c : Contour) (s : QState) {i j : Nat} (h : j ≠ i) : (qThreadStep c s i).th j = s.th j := by
  rw [qThreadStep]
  split
  · split
    · rfl
    · exact QState.put_ne _ _ _ h
  · split <;> exact QState.put_ne _ _ _ h

/-- The calls of a thread: ended, in progress and to come. -/
def qCalls (t : QThread) : List QOp := t.out.map Prod.fst ++ (t.cur.toList.map Prod.fst ++ t.todo)

theorem qThreadStep_calls (c : Contour) (s : QState) (i j : Nat) : qCalls ((qThreadStep c s i).th j) = qCalls (s.th j) := by
  by_cases h : j = i
  · subst h
    rw [qThreadStep]
    cases hcur : (s.th j).cur with
    | none =>
      cases htodo : (s.th j).todo with
      | nil => rfl
      | cons q rest => dsimp only; rw [QState.put_self]; simp [qCalls, hcur, htodo]
    | some qp =>
      obtain ⟨q, pc⟩ := qp
      dsimp only
      split <;> rw [QState.put_self] <;> simp [qCalls, hcur]
  · rw [qThreadStep_other c s h]

/-- Every thread makes its calls in order, and each that ended has one outcome. -/
theorem C128_calls (c : Contour) (o : QObj) (tasks : Nat → List QOp) (sched : List Nat) (k : Nat) :
    qCalls ((qRun c (qStart o tasks) sched).th k) = tasks k := by
  have : ∀ (sched : List Nat) (s : QState), qCalls ((qRun c s sched).th k) = qCalls (s.th k) := by
    intro sched
    induction sched with
    | nil => exact fun _ => rfl
    | cons i is ih => exact fun s => (ih _).trans (qThreadStep_calls c s i k)
  exact this sched _

/-- At most so many steps remain in a call, when there are at most two points. -/
def qRank : QPc → Nat
  | .start => 16
  | .reread => 1
  | .wmax0 _ xs => 3 * xs.length + 5
  | .wmin0 _ xs => 3 * xs.length + 4
  | .cmpMax xs => 3 * xs.length + 3
  | .wmax _ xs => 3 * xs.length + 4
  | .cmpMin _ xs => 3 * xs.length + 5
  | .wmin _ xs => 3 * xs.length + 4
  | .readMax => 2
  | .readMin => 1
  | .rb i _ => (4 - i) + 1
  | .wb i => (4 - i) + 2
  | .wset => 1
  | .dead => 0

theorem qStep_rank {c : Contour} {l : List ℝ} (hc : c.pts = some l) (hl : l.length ≤ 2) (o : QObj) (q : QOp) {pc : QPc}
    (hd : pc ≠ .dead) : match qStep c o q pc with
      | .next _ pc' => qRank pc' < qRank pc ∧ pc' ≠ .dead
      | _ => 0 < qRank pc := by
  have find : match qFind c o with
      | .next _ pc' => qRank pc' < 16 ∧ pc' ≠ .dead
      | _ => 0 < 16 := by
    rw [qFind, hc]
    cases l with
    | nil => simp
    | cons x xs => simp [qRank] at hl ⊢; omega
  cases pc with
  | dead => exact absurd rfl hd
  | start =>
    cases q with
    | getMax => rw [qStep]; split_ifs; exacts [⟨by simp [qRank], by simp⟩, find]
    | getMin => rw [qStep]; split_ifs; exacts [⟨by simp [qRank], by simp⟩, find]
    | findMax => exact find
    | findMin => exact find
    | bounds => rw [qStep]; split_ifs; exacts [⟨by simp [qRank], by simp⟩, ⟨by simp [qRank], by simp⟩]
  | reread => cases q <;> simp [qStep, qRank]
  | wmax0 x xs => simp [qStep, qRank]
  | wmin0 x xs => simp [qStep, qRank]
  | cmpMax xs =>
    cases xs with
    | nil => simp [qStep, qRank]
    | cons y xs => rw [qStep]; split_ifs <;> simp [qRank] <;> omega
  | wmax y xs => simp [qStep, qRank]
  | cmpMin y xs => rw [qStep]; split_ifs <;> simp [qRank]
  | wmin y xs => simp [qStep, qRank]
  | readMax => cases q <;> simp [qStep, qRank]
  | readMin => simp [qStep, qRank]
  | rb i acc => rw [qStep]; split_ifs <;> simp [qRank]; omega
  | wb i => rw [qStep]; dsimp only; split_ifs <;> simp [qRank] <;> omega
  | wset => simp [qStep, qRank]

/-- At most so many steps remain for a thread. -/
def qLeft (t : QThread) : Nat := (t.cur.elim 0 fun e => qRank e.2) + 17 * t.todo.length

/-- Every call ends after at most 17 steps of its own thread, whatever the others do: no thread waits for
another. -/
theorem C128_ends {axis : Pt} {dom : List Pt} (h : findMaxRadius axis dom ≠ .ub) (o : QObj) (tasks : Nat → List QOp)
    (sched : List Nat) (k : Nat) (hk : 17 * (tasks k).length ≤ sched.count k) :
    ((qRun (Contour.of axis dom) (qStart o tasks) sched).th k).out.map Prod.fst = tasks k := by
  obtain ⟨l, hc, hl⟩ : ∃ l, (Contour.of axis dom).pts = some l ∧ l.length ≤ 2 := by
    show ∃ l, rpoints axis dom = some l ∧ _
    rw [findMaxRadius] at h
    rw [rpoints]
    cases h1 : dom.head? with
    | none => rw [h1] at h; simp at h
    | some v0 =>
      cases h2 : dom.getLast? with
      | none => rw [h1, h2] at h; simp at h
      | some vl =>
        rw [h1, h2] at h
        dsimp only at h ⊢
        by_cases hs : spans axis.z vl v0
        · rw [if_pos hs] at h; exact absurd rfl h
        · rw [if_neg hs]; exact ⟨_, rfl, rpointsLoop_two _ _ _ (by simp)⟩
  have main : ∀ (sched : List Nat) (s : QState), (∀ q pc, (s.th k).cur = some (q, pc) → pc ≠ .dead) →
      qLeft (s.th k) ≤ sched.count k → ((qRun (Contour.of axis dom) s sched).th k).out.map Prod.fst = qCalls (s.th k) := by
    have fin : ∀ t : QThread, (∀ q pc, t.cur = some (q, pc) → 0 < qRank pc) → qLeft t = 0 → t.out.map Prod.fst = qCalls t := by
      intro t hd h0
      obtain ⟨cur, todo, out⟩ := t
      cases cur with
      | some e => have := hd e.1 e.2 rfl; simp [qLeft] at h0; omega
      | none => simp [qLeft] at h0; simp [qCalls, h0]
    have posR : ∀ pc, pc ≠ .dead → 0 < qRank pc := by intro pc hd; cases pc <;> simp [qRank] at hd ⊢
    intro sched
    induction sched with
    | nil => exact fun s hd h0 => fin (s.th k) (fun q pc z => posR pc (hd q pc z)) (by simpa using h0)
    | cons i is ih =>
      intro s hd h0
      have key : (∀ q pc, ((qThreadStep (Contour.of axis dom) s i).th k).cur = some (q, pc) → pc ≠ .dead) ∧
          qLeft ((qThreadStep (Contour.of axis dom) s i).th k) ≤ is.count k := by
        by_cases hi : k = i
        · subst hi
          rw [List.count_cons_self] at h0
          rw [qThreadStep]
          cases hcur : (s.th k).cur with
          | none =>
            cases htodo : (s.th k).todo with
            | nil => exact ⟨by simp [hcur], by simp [qLeft, hcur, htodo]⟩
            | cons q rest =>
              dsimp only
              rw [QState.put_self]
              refine ⟨fun q' pc' z => ?_, ?_⟩
              · simp at z; rw [← z.2]; simp
              · simp [qLeft, hcur, htodo] at h0
                simp [qLeft, qRank]
                omega
          | some qp =>
            obtain ⟨q, pc⟩ := qp
            have r := qStep_rank hc hl s.obj q (hd q pc hcur)
            simp [qLeft, hcur] at h0
            dsimp only
            cases hstep : qStep (Contour.of axis dom) s.obj q pc with
            | next o' pc' =>
              rw [hstep] at r
              dsimp only at r ⊢
              rw [QState.put_self]
              refine ⟨fun q' pc'' z => ?_, ?_⟩
              · simp at z; rw [← z.2]; exact r.2
              · simp [qLeft]; omega
            | ret o' v =>
              rw [hstep] at r
              dsimp only at r ⊢
              rw [QState.put_self]
              exact ⟨by simp, by simp [qLeft]; omega⟩
            | throws =>
              rw [hstep] at r
              dsimp only at r ⊢
              rw [QState.put_self]
              exact ⟨by simp, by simp [qLeft]; omega⟩
        · rw [qThreadStep_other _ _ hi]
          rw [List.count_cons_of_ne (Ne.symm hi)] at h0
          exact ⟨hd, h0⟩
      exact (ih _ key.1 key.2).trans (qThreadStep_calls _ s i k)
  exact main sched (qStart o tasks) (fun q pc z => absurd z (by simp [qStart])) (by simpa [qLeft, qStart] using hk)

/-- When the contour does not cross the height of the axis and the radii are not known: every call for a
radius throws, no radius is remembered, and the rectangle is right all the same. -/
theorem C128_not_inside {axis : Pt} {dom : List Pt} (h : findMaxRadius axis dom = .notInside) {o : QObj}
    (h1 : o.maxr = -1) (h2 : o.minr = -1) (h3 : o.bset = true → [o.b 0, o.b 1, o.b 2, o.b 3] = boxList axis dom)
    (tasks : Nat → List QOp) (sched : List Nat) :
    (qRun (Contour.of axis dom) (qStart o tasks) sched).obj.maxr = -1 ∧
    (qRun (Contour.of axis dom) (qStart o tasks) sched).obj.minr = -1 ∧
    ∀ k q v, (q, v) ∈ ((qRun (Contour.of axis dom) (qStart o tasks) sched).th k).out →
      v = if q = .bounds then some (boxList axis dom) else none := by
  have hc : (Contour.of axis dom).pts = some [] := by
    show rpoints axis dom = _
    rw [findMaxRadius] at h
    rw [rpoints]
    cases e1 : dom.head? with
    | none => rw [e1] at h; simp at h
    | some v0 =>
      cases e2 : dom.getLast? with
      | none => rw [e1, e2] at h; simp at h
      | some vl =>
        rw [e1, e2] at h
        dsimp only at h ⊢
        by_cases hs : spans axis.z vl v0
        · rw [if_pos hs] at h; simp at h
        · rw [if_neg hs] at h ⊢
          cases e : rpointsLoop axis.z dom [] with
          | nil => rfl
          | cons x xs => rw [e] at h; simp [rpointsResult] at h
  generalize hC : Contour.of axis dom = c at hc
  have hbox : boxList axis dom = [c.box 0, c.box 1, c.box 2, c.box 3] := by rw [← hC]; rfl
  rw [hbox] at h3 ⊢
  let Pc : QObj → QOp → QPc → Prop := fun o q pc => pc = .start ∨
    (q = .bounds ∧ ((∃ i, i < 4 ∧ o.bset = true ∧ pc = .rb i ((List.range i).map c.box)) ∨
      (∃ i, i < 4 ∧ (∀ j < i, o.b j = c.box j) ∧ pc = .wb i) ∨ ((∀ j < 4, o.b j = c.box j) ∧ pc = .wset)))
  let Ob : QObj → Prop := fun o => o.maxr = -1 ∧ o.minr = -1 ∧ (o.bset = true → ∀ j < 4, o.b j = c.box j)
  let Out : QOp × Option (List ℝ) → Prop := fun e => e.2 = if e.1 = .bounds then some [c.box 0, c.box 1, c.box 2, c.box 3] else none
  let V : QState → Prop := fun s => Ob s.obj ∧ ∀ k, (∀ q pc, (s.th k).cur = some (q, pc) → Pc s.obj q pc) ∧ ∀ e ∈ (s.th k).out, Out e
  have put : ∀ s k t (o' : QObj), V s → Ob o' → (s.obj.bset = true → o'.bset = true) →
      (∀ j, s.obj.b j = c.box j → o'.b j = c.box j) →
      (∀ q pc, t.cur = some (q, pc) → Pc o' q pc) → (∀ e ∈ t.out, Out e) → V (s.put o' k t) := by
    intro s k t o' hV ho hb hj hp he
    refine ⟨ho, fun j => ?_⟩
    by_cases e : j = k
    · subst e; rw [QState.put_self]; exact ⟨hp, he⟩
    · rw [QState.put_ne _ _ _ e]
      refine ⟨fun q pc z => ?_, (hV.2 j).2⟩
      rcases (hV.2 j).1 q pc z with a | ⟨a, ⟨i, b1, b2, b3⟩ | ⟨i, b1, b2, b3⟩ | ⟨b1, b2⟩⟩
      · exact Or.inl a
      · exact Or.inr ⟨a, Or.inl ⟨i, b1, hb b2, b3⟩⟩
      · exact Or.inr ⟨a, Or.inr (Or.inl ⟨i, b1, fun j z => hj j (b2 j z), b3⟩)⟩
      · exact Or.inr ⟨a, Or.inr (Or.inr ⟨fun j z => hj j (b1 j z), b2⟩)⟩
  have app : ∀ (l : List (QOp × Option (List ℝ))) e, (∀ e ∈ l, Out e) → Out e → ∀ e' ∈ l ++ [e], Out e' := by
    intro l e a b e' he
    rcases List.mem_append.mp he with he | he
    · exact a e' he
    · rw [List.mem_singleton.mp he]; exact b
  have one : ∀ s k, V s → V (qThreadStep c s k) := by
    intro s k hV
    obtain ⟨hP, hO⟩ := hV.2 k
    rw [qThreadStep]
    cases hcur : (s.th k).cur with
    | none =>
      cases htodo : (s.th k).todo with
      | nil => exact hV
      | cons q rest =>
        exact put s k _ _ hV hV.1 id (fun _ => id) (fun q' pc' z => by simp at z; exact Or.inl z.2.symm) hO
    | some qp =>
      obtain ⟨q, pc⟩ := qp
      have hp := hP q pc hcur
      dsimp only
      have go : ∀ (o' : QObj) pc', Ob o' → (s.obj.bset = true → o'.bset = true) → (∀ j, s.obj.b j = c.box j → o'.b j = c.box j) →
          Pc o' q pc' → V (s.put o' k ⟨some (q, pc'), (s.th k).todo, (s.th k).out⟩) := fun o' pc' a b d e =>
        put s k _ o' hV a b d (fun q' pc'' z => by simp at z; rw [← z.1, ← z.2]; exact e) hO
      have thr : q ≠ .bounds → V (s.put s.obj k ⟨none, (s.th k).todo, (s.th k).out ++ [(q, none)]⟩) := fun hq =>
        put s k _ _ hV hV.1 id (fun _ => id) (fun _ _ z => absurd z (by simp)) (app _ _ hO (by show none = _; rw [if_neg hq]))
      rcases hp with rfl | ⟨rfl, ⟨i, b1, b2, rfl⟩ | ⟨i, b1, b2, rfl⟩ | ⟨b1, rfl⟩⟩
      · cases q with
        | getMax =>
          rw [qStep, if_neg (by rw [hV.1.1]; norm_num), qFind, hc]; exact thr (by decide)
        | getMin =>
          rw [qStep, if_neg (by rw [hV.1.2.1]; norm_num), qFind, hc]; exact thr (by decide)
        | findMax => rw [qStep, qFind, hc]; exact thr (by decide)
        | findMin => rw [qStep, qFind, hc]; exact thr (by decide)
        | bounds =>
          rw [qStep]
          by_cases hb : s.obj.bset = true
          · rw [if_pos hb]; exact go _ _ hV.1 id (fun _ => id) (Or.inr ⟨rfl, Or.inl ⟨0, by norm_num, hb, rfl⟩⟩)
          · rw [if_neg hb]
            exact go _ _ hV.1 id (fun _ => id) (Or.inr ⟨rfl, Or.inr (Or.inl ⟨0, by norm_num, fun j z => absurd z (Nat.not_lt_zero j), rfl⟩)⟩)
      · have e : (List.range i).map c.box ++ [s.obj.b i] = (List.range (i + 1)).map c.box := by
          rw [hV.1.2.2 b2 i b1, List.range_succ, List.map_append]; rfl
        rw [qStep, e]
        by_cases h3 : i < 3
        · rw [if_pos h3]; exact go _ _ hV.1 id (fun _ => id) (Or.inr ⟨rfl, Or.inl ⟨i + 1, by omega, b2, rfl⟩⟩)
        · rw [if_neg h3]
          have : i = 3 := by omega
          subst this
          exact put s k _ _ hV hV.1 id (fun _ => id) (fun _ _ z => absurd z (by simp)) (app _ _ hO rfl)
      · have m : ∀ j, s.obj.b j = c.box j → (if j = i then c.box i else s.obj.b j) = c.box j := by
          intro j hj
          by_cases e : j = i
          · rw [if_pos e, e]
          · rw [if_neg e, hj]
        have up : ∀ j < i + 1, (if j = i then c.box i else s.obj.b j) = c.box j := by
          intro j hj
          by_cases e : j = i
          · rw [if_pos e, e]
          · exact m j (b2 j (by omega))
        have ob : Ob { s.obj with b := fun j => if j = i then c.box i else s.obj.b j } :=
          ⟨hV.1.1, hV.1.2.1, fun z j hj => m j (hV.1.2.2 z j hj)⟩
        rw [qStep]
        by_cases h3 : i < 3
        · rw [if_pos h3]; exact go _ _ ob id m (Or.inr ⟨rfl, Or.inr (Or.inl ⟨i + 1, by omega, up, rfl⟩)⟩)
        · rw [if_neg h3]; exact go _ _ ob id m (Or.inr ⟨rfl, Or.inr (Or.inr ⟨fun j hj => up j (by omega), rfl⟩)⟩)
      · exact put s k _ _ hV ⟨hV.1.1, hV.1.2.1, fun _ => b1⟩ (fun _ => rfl) (fun _ => id) (fun _ _ z => absurd z (by simp)) (app _ _ hO rfl)
  have all : ∀ (sched : List Nat) s, V s → V (qRun c s sched) := by
    intro sched
    induction sched with
    | nil => exact fun _ z => z
    | cons k ks ih => exact fun s z => ih _ (one s k z)
  have fin := all sched (qStart o tasks) ⟨⟨h1, h2, fun hb j hj => by
    have e := h3 hb
    simp only [List.cons.injEq, and_true] at e
    match j, hj with
    | 0, _ => exact e.1
    | 1, _ => exact e.2.1
    | 2, _ => exact e.2.2.1
    | 3, _ => exact e.2.2.2⟩, fun k => ⟨fun _ _ z => absurd z (by simp [qStart]), fun _ z => absurd z (by simp [qStart])⟩⟩
  exact ⟨fin.1.1, fin.1.2.1, fun k q v z => (fin.2 k).2 _ z⟩

/-- A contour above the axis. -/
example : findMaxRadius ⟨2, 0⟩ [⟨1, 1⟩, ⟨3, 1⟩, ⟨2, 2⟩] = .notInside := by
  norm_num [findMaxRadius, spans, rpointsLoop, rpointsResult]

/-- For every field whose rectangle has not been computed: two threads calling `GetDomainBounds` can
reach a data race, so that the behaviour is undefined. -/
theorem C128_refuted_race (axis : Pt) (dom : List Pt) (o : QObj) (ho : o.bset = false) :
    ∃ sched, QRace (qRun (Contour.of axis dom) (qStart o (fun _ => [.bounds])) sched) :=
  ⟨[0, 1, 0, 1], 0, 1, .bounds, .wb 0, .bounds, .wb 0, .b 0, true, true, by decide,
    by simp [qRun, qThreadStep, qStart, QState.put, qStep, ho], by simp [qRun, qThreadStep, qStart, QState.put, qStep, ho],
    rfl, rfl, Or.inl rfl⟩

/-- A contour met first on the inner side. -/
def innerFirst : List Pt := [⟨1, -1⟩, ⟨1, 1⟩, ⟨3, 1⟩, ⟨3, -1⟩]

theorem innerFirst_max : findMaxRadius ⟨2, 0⟩ innerFirst = .ok 3 1 := by
  norm_num [innerFirst, findMaxRadius, spans, rpointsLoop, crossR, rpointsResult, maxMin]

theorem innerFirst_points : (Contour.of ⟨2, 0⟩ innerFirst).pts = some [1, 3] := by
  norm_num [Contour.of, rpoints, innerFirst, spans, rpointsLoop, crossR]

/-- A new field: while one thread computes the radii, another gets the smallest as the largest. -/
theorem C128_refuted_value (b : Nat → ℝ) :
    ∃ sched, ((qRun (Contour.of ⟨2, 0⟩ innerFirst) (qStart ⟨-1, -1, false, b⟩ (fun _ => [.getMax])) sched).th 1).out =
      [(.getMax, some [1])] ∧ findMaxRadius ⟨2, 0⟩ innerFirst = .ok 3 1 :=
  ⟨[0, 0, 0, 1, 1, 1], by
    norm_num [qRun, qThreadStep, qStart, QState.put, qStep, qFind, innerFirst_points], innerFirst_max⟩

/-- The same although the radii were known, when a thread calls `FindMaxRadius`. -/
theorem C128_refuted_again (b : Nat → ℝ) :
    ∃ sched, ((qRun (Contour.of ⟨2, 0⟩ innerFirst) (qStart ⟨3, 1, false, b⟩
      (fun k => if k = 0 then [.findMax] else [.getMax])) sched).th 1).out = [(.getMax, some [1])] :=
  ⟨[0, 0, 0, 1, 1, 1], by
    norm_num [qRun, qThreadStep, qStart, QState.put, qStep, qFind, innerFirst_points]⟩

/-- The hypotheses can be met: a new field. -/
example : ∃ o, findMaxRadius ⟨2, 0⟩ innerFirst = .ok 3 1 ∧ QFresh ⟨2, 0⟩ innerFirst 3 1 o :=
  ⟨⟨-1, -1, false, fun _ => 0⟩, innerFirst_max, Or.inl ⟨rfl, rfl⟩, fun h => absurd h (by simp)⟩

/-- And one that knows everything. -/
example : ∃ o : QObj, o.maxr = 3 ∧ o.minr = 1 ∧ o.bset = true ∧ [o.b 0, o.b 1, o.b 2, o.b 3] = boxList ⟨2, 0⟩ innerFirst :=
  ⟨⟨3, 1, true, (Contour.of ⟨2, 0⟩ innerFirst).box⟩, rfl, rfl, rfl, rfl⟩

/-- Calls do end: a thread asking for the largest radius of a new field. -/
example (b : Nat → ℝ) : ((qRun (Contour.of ⟨2, 0⟩ innerFirst) (qStart ⟨-1, -1, false, b⟩ (fun _ => [.getMax]))
    [0, 0, 0, 0, 0, 0, 0, 0]).th 0).out = [(.getMax, some [3])] := by
  norm_num [qRun, qThreadStep, qStart, QState.put, qStep, qFind, innerFirst_points]

end Softlib
