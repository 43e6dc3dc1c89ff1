/-
What the results of field evaluations show later on (C107).  Model: ResultModel.lean.
-/
import Verif.Magnetic.ResultModel

namespace Softlib.Magnetic.Result

variable {P V D J F : Type}

/-- The places of object `i`. -/
structure Inv (s : St P V D J F) : Prop where
  len : s.mem.length = 4 * s.objs.length
  at_ : ∀ i o, s.obj i = some o → o.vec = 4 * i ∧ o.jac = 4 * i + 1 ∧ o.data = 4 * i + 2 ∧ o.flux = 4 * i + 3

theorem obj_lt (s : St P V D J F) (i : Nat) (o : Obj P V D J F) (h : s.obj i = some o) : i < s.objs.length := by
  unfold St.obj at h
  by_contra hc
  rw [List.getElem?_eq_none (by omega)] at h
  cases h

theorem write_len (m : List (Cell V D J F)) (a : Nat) (c : Content V D J F) : (write m a c).length = m.length := by
  simp [write]

theorem write_ne (m : List (Cell V D J F)) (a b : Nat) (c : Content V D J F) (h : a ≠ b) : (write m a c)[b]? = m[b]? := by
  simp [write, List.getElem?_set_ne h]

theorem write_eq (m : List (Cell V D J F)) (a : Nat) (c : Content V D J F) (h : a < m.length) :
    (write m a c)[a]? = some ⟨true, some c⟩ := by
  simp [write, h]

theorem release_ne (m : List (Cell V D J F)) (a b : Nat) (h : a ≠ b) : (release m a)[b]? = m[b]? := by
  simp [release, List.getElem?_set_ne h]

theorem release_eq (m : List (Cell V D J F)) (a : Nat) (h : a < m.length) : (release m a)[a]? = some ⟨false, none⟩ := by
  simp [release, h]

theorem release_len (m : List (Cell V D J F)) (a : Nat) : (release m a).length = m.length := by
  simp [release]

theorem writeAll_len (o : Obj P V D J F) : ∀ (pts : List P) (m : List (Cell V D J F)), (writeAll m o pts).length = m.length
  | [], _ => rfl
  | p :: rest, m => by
    unfold writeAll
    rw [writeAll_len o rest, write_len]

theorem writeAll_ne (o : Obj P V D J F) (b : Nat) (h : o.vec ≠ b) : ∀ (pts : List P) (m : List (Cell V D J F)),
    (writeAll m o pts)[b]? = m[b]?
  | [], _ => rfl
  | p :: rest, m => by
    unfold writeAll
    rw [writeAll_ne o b h rest, write_ne _ _ _ _ h]

theorem writeAll_eq (o : Obj P V D J F) : ∀ (pts : List P) (m : List (Cell V D J F)) (_ : o.vec < m.length) (p : P)
    (_ : pts.getLast? = some p), (writeAll m o pts)[o.vec]? = some ⟨true, some (.vec (o.fld.vec p))⟩
  | [], _, _, _, h => by cases h
  | [q], m, hl, p, h => by
    cases h
    exact write_eq _ _ _ hl
  | q :: q' :: rest, m, hl, p, h => by
    unfold writeAll
    exact writeAll_eq o (q' :: rest) _ (by rw [write_len]; exact hl) p (by simpa using h)

theorem writeDeriv_len (m : List (Cell V D J F)) (o : Obj P V D J F) (p : P) : (writeDeriv m o p).length = m.length := by
  unfold writeDeriv
  simp only [write_len]
  split
  · exact write_len _ _ _
  · rfl

theorem releaseAll_len (m : List (Cell V D J F)) (o : Obj P V D J F) : (releaseAll m o).length = m.length := by
  unfold releaseAll
  simp only
  split <;> simp only [release_len]

theorem alloc_mem (s : St P V D J F) (f : Fld P V D J F) (a : Nat) (h : a < s.mem.length) :
    (alloc s f).mem[a]? = s.mem[a]? := by
  unfold alloc
  exact List.getElem?_append_left h

theorem alloc_obj (s : St P V D J F) (f : Fld P V D J F) (i : Nat) (h : i < s.objs.length) :
    (alloc s f).obj i = s.obj i := by
  unfold alloc St.obj
  rw [List.getElem?_append_left h]

theorem alloc_inv (s : St P V D J F) (f : Fld P V D J F) (h : Inv s) : Inv (alloc s f) := by
  constructor
  · simp [alloc, h.len]
    omega
  · intro i o ho
    by_cases hi : i < s.objs.length
    · rw [alloc_obj s f i hi] at ho
      exact h.at_ i o ho
    · have hlt := obj_lt _ _ _ ho
      simp only [alloc, List.length_append, List.length_singleton] at hlt
      have e : i = s.objs.length := by omega
      subst e
      simp only [alloc, St.obj, List.getElem?_append_right (le_refl _), Nat.sub_self, List.getElem?_cons_zero,
        Option.join] at ho
      cases ho
      have := h.len
      simp only
      omega

theorem obj_set (s : St P V D J F) (m : List (Cell V D J F)) (j : Nat) (x : Option (Obj P V D J F)) (i : Nat)
    (hj : j < s.objs.length) :
    (⟨m, s.objs.set j x⟩ : St P V D J F).obj i = if j = i then x else s.obj i := by
  unfold St.obj
  simp only
  by_cases h : j = i
  · subst h
    simp [hj]
  · rw [List.getElem?_set_ne h, if_neg h]

theorem step_inv (s : St P V D J F) (op : Op P V D J F) (h : Inv s) : Inv (step s op).2 := by
  cases op with
  | make f => exact alloc_inv s f h
  | clone i =>
    unfold step
    simp only
    cases ho : s.obj i with
    | none => exact h
    | some o => exact alloc_inv s _ h
  | change i f =>
    unfold step
    simp only
    cases ho : s.obj i with
    | none => exact h
    | some o =>
      have hi := obj_lt s i o ho
      refine ⟨by simpa using h.len, ?_⟩
      intro k o' hk
      simp only at hk
      rw [obj_set s s.mem i _ k hi] at hk
      split at hk
      · rename_i e
        subst e
        cases hk
        exact h.at_ i o ho
      · exact h.at_ k o' hk
  | eval i p =>
    unfold step
    simp only
    cases ho : s.obj i with
    | none => exact h
    | some o => exact ⟨by rw [write_len]; exact h.len, h.at_⟩
  | deriv i p =>
    unfold step
    simp only
    cases ho : s.obj i with
    | none => exact h
    | some o => exact ⟨by rw [writeDeriv_len]; exact h.len, h.at_⟩
  | flux i p =>
    unfold step
    simp only
    cases ho : s.obj i with
    | none => exact h
    | some o =>
      simp only
      cases o.fld.flux p <;> exact h
  | fluxDeriv i p =>
    unfold step
    simp only
    cases ho : s.obj i with
    | none => exact h
    | some o =>
      simp only
      cases o.fld.flux p with
      | none => exact h
      | some f => exact ⟨by rw [write_len]; exact h.len, h.at_⟩
  | toNumeric i pts f =>
    unfold step
    simp only
    cases ho : s.obj i with
    | none => exact h
    | some o =>
      simp only
      split
      · exact h
      · exact alloc_inv _ _ ⟨by rw [writeAll_len]; exact h.len, h.at_⟩
  | destroy i =>
    unfold step
    simp only
    cases ho : s.obj i with
    | none => exact h
    | some o =>
      have hi := obj_lt s i o ho
      refine ⟨by simp only [List.length_set, releaseAll_len]; exact h.len, ?_⟩
      intro k o' hk
      simp only at hk
      rw [obj_set s _ i _ k hi] at hk
      split at hk
      · cases hk
      · exact h.at_ k o' hk

/-- Objects are numbered as they are made. -/
theorem step_objs (s : St P V D J F) (op : Op P V D J F) : s.objs.length ≤ (step s op).2.objs.length := by
  cases op <;> unfold step <;> simp only
  · simp [alloc]
  all_goals
    cases s.obj _ with
    | none => exact le_refl _
    | some o =>
      first
      | exact le_refl _
      | (simp [alloc]; done)
      | (simp only; split <;> simp [alloc])

/-- The kind of an object does not change. -/
def Kind (s : St P V D J F) (i : Nat) (b : Bool) : Prop := ∀ o, s.obj i = some o → o.fld.numeric = b

theorem step_kind (s : St P V D J F) (op : Op P V D J F) (i : Nat) (b : Bool) (hi : i < s.objs.length) (h : Kind s i b) :
    Kind (step s op).2 i b := by
  have hal : ∀ (m : List (Cell V D J F)) (f : Fld P V D J F), Kind (alloc ⟨m, s.objs⟩ f) i b := by
    intro m f o ho
    rw [alloc_obj ⟨m, s.objs⟩ f i hi] at ho
    exact h o ho
  cases op with
  | make f => exact hal s.mem f
  | clone j =>
    unfold step
    simp only
    cases s.obj j with
    | none => exact h
    | some o => exact hal s.mem _
  | change j f =>
    unfold step
    simp only
    cases ho : s.obj j with
    | none => exact h
    | some o =>
      intro o' ho'
      simp only at ho'
      rw [obj_set s s.mem j _ i (obj_lt s j o ho)] at ho'
      split at ho'
      · rename_i e
        subst e
        cases ho'
        exact h o ho
      · exact h o' ho'
  | eval j p =>
    unfold step
    simp only
    cases s.obj j <;> exact h
  | deriv j p =>
    unfold step
    simp only
    cases s.obj j <;> exact h
  | flux j p =>
    unfold step
    simp only
    cases s.obj j with
    | none => exact h
    | some o =>
      simp only
      cases o.fld.flux p <;> exact h
  | fluxDeriv j p =>
    unfold step
    simp only
    cases s.obj j with
    | none => exact h
    | some o =>
      simp only
      cases o.fld.flux p <;> exact h
  | toNumeric j pts f =>
    unfold step
    simp only
    cases s.obj j with
    | none => exact h
    | some o =>
      simp only
      split
      · exact h
      · exact hal _ _
  | destroy j =>
    unfold step
    simp only
    cases ho : s.obj j with
    | none => exact h
    | some o =>
      intro o' ho'
      simp only at ho'
      rw [obj_set s _ j _ i (obj_lt s j o ho)] at ho'
      split at ho'
      · cases ho'
      · exact h o' ho'

/-- The operation writes or releases place `k` of object `i`, of the given kind. -/
def touches (numeric : Bool) (i k : Nat) : Op P V D J F → Prop
  | .eval j _ => j = i ∧ k = 0
  | .deriv j _ => j = i ∧ (k = 1 ∨ k = 2 ∨ (k = 0 ∧ numeric = true))
  | .fluxDeriv j _ => j = i ∧ k = 3
  | .toNumeric j _ _ => j = i ∧ k = 0
  | .destroy j => j = i ∧ (k ≠ 1 ∨ numeric = true)
  | _ => False

theorem step_frame (s : St P V D J F) (op : Op P V D J F) (h : Inv s) (i k : Nat) (b : Bool) (hi : i < s.objs.length)
    (hk : k < 4) (hb : Kind s i b) (hq : ¬ touches b i k op) : (step s op).2.mem[4 * i + k]? = s.mem[4 * i + k]? := by
  have hlen := h.len
  cases op with
  | make f => exact alloc_mem s f _ (by omega)
  | clone j =>
    unfold step
    simp only
    cases s.obj j with
    | none => rfl
    | some o => exact alloc_mem s _ _ (by omega)
  | change j f =>
    unfold step
    simp only
    cases s.obj j <;> rfl
  | eval j p =>
    unfold step
    simp only
    cases ho : s.obj j with
    | none => rfl
    | some o =>
      have ha := h.at_ j o ho
      apply write_ne
      intro e
      exact hq ⟨by omega, by omega⟩
  | deriv j p =>
    unfold step
    simp only
    cases ho : s.obj j with
    | none => rfl
    | some o =>
      have ha := h.at_ j o ho
      simp only [writeDeriv]
      rw [write_ne _ _ _ _ (fun e => hq ⟨by omega, by omega⟩), write_ne _ _ _ _ (fun e => hq ⟨by omega, by omega⟩)]
      split
      · rename_i hn
        apply write_ne
        intro e
        have hji : j = i := by omega
        subst hji
        exact hq ⟨rfl, Or.inr (Or.inr ⟨by omega, (hb o ho).symm.trans hn⟩)⟩
      · rfl
  | flux j p =>
    unfold step
    simp only
    cases s.obj j with
    | none => rfl
    | some o =>
      simp only
      cases o.fld.flux p <;> rfl
  | fluxDeriv j p =>
    unfold step
    simp only
    cases ho : s.obj j with
    | none => rfl
    | some o =>
      have ha := h.at_ j o ho
      simp only
      cases o.fld.flux p with
      | none => rfl
      | some f =>
        apply write_ne
        intro e
        exact hq ⟨by omega, by omega⟩
  | toNumeric j pts f =>
    unfold step
    simp only
    cases ho : s.obj j with
    | none => rfl
    | some o =>
      have ha := h.at_ j o ho
      simp only
      split
      · rfl
      · rw [alloc_mem _ _ _ (by rw [writeAll_len]; omega)]
        apply writeAll_ne
        intro e
        exact hq ⟨by omega, by omega⟩
  | destroy j =>
    unfold step
    simp only
    cases ho : s.obj j with
    | none => rfl
    | some o =>
      have ha := h.at_ j o ho
      simp only [releaseAll]
      have hr : (release (release (release s.mem o.vec) o.data) o.flux)[4 * i + k]? = s.mem[4 * i + k]? := by
        rw [release_ne, release_ne, release_ne]
        · intro e; exact hq ⟨by omega, by omega⟩
        · intro e; exact hq ⟨by omega, by omega⟩
        · intro e; exact hq ⟨by omega, by omega⟩
      split
      · rename_i hn
        rw [release_ne, hr]
        intro e
        have hji : j = i := by omega
        subst hji
        exact hq ⟨rfl, Or.inr ((hb o ho).symm.trans hn)⟩
      · exact hr

theorem run_frame : ∀ (ops : List (Op P V D J F)) (s t : St P V D J F) (_ : Inv s) (i k : Nat) (b : Bool)
    (_ : i < s.objs.length) (_ : k < 4) (_ : Kind s i b) (_ : ∀ op ∈ ops, ¬ touches b i k op) (_ : run s ops = some t),
    t.mem[4 * i + k]? = s.mem[4 * i + k]?
  | [], s, t, _, _, _, _, _, _, _, _, hr => by
    cases hr
    rfl
  | op :: rest, s, t, h, i, k, b, hi, hk, hb, hq, hr => by
    have hr' : run (step s op).2 rest = some t := by
      unfold run at hr
      split at hr
      · cases hr
      · exact hr
    rw [run_frame rest _ t (step_inv s op h) i k b (lt_of_lt_of_le hi (step_objs s op)) hk (step_kind s op i b hi hb)
      (fun o ho => hq o (List.mem_cons_of_mem _ ho)) hr']
    exact step_frame s op h i k b hi hk hb (hq op (List.mem_cons_self ..))

theorem run_inv : ∀ (ops : List (Op P V D J F)) (s t : St P V D J F) (_ : Inv s) (_ : run s ops = some t), Inv t
  | [], s, t, h, hr => by
    cases hr
    exact h
  | op :: rest, s, t, h, hr => by
    unfold run at hr
    split at hr
    · cases hr
    · exact run_inv rest _ t (step_inv s op h) hr

theorem init_inv : Inv (St.init : St P V D J F) := ⟨rfl, by intro i o h; simp [St.init, St.obj] at h⟩

/-! ### destroyed objects -/

theorem step_dead (s : St P V D J F) (op : Op P V D J F) (i : Nat) (hi : i < s.objs.length) (h : s.obj i = none) :
    (step s op).2.obj i = none := by
  have hal : ∀ (m : List (Cell V D J F)) (f : Fld P V D J F), (alloc ⟨m, s.objs⟩ f).obj i = none := by
    intro m f
    rw [alloc_obj ⟨m, s.objs⟩ f i hi]
    exact h
  have hset : ∀ (m : List (Cell V D J F)) (j : Nat) (x : Option (Obj P V D J F)) (o : Obj P V D J F), s.obj j = some o →
      (⟨m, s.objs.set j x⟩ : St P V D J F).obj i = none := by
    intro m j x o ho
    rw [obj_set s m j x i (obj_lt s j o ho), if_neg, h]
    rintro rfl
    rw [h] at ho
    cases ho
  cases op with
  | make f => exact hal s.mem f
  | clone j =>
    unfold step
    simp only
    cases s.obj j with
    | none => exact h
    | some o => exact hal s.mem _
  | change j f =>
    unfold step
    simp only
    cases ho : s.obj j with
    | none => exact h
    | some o => exact hset _ j _ o ho
  | eval j p =>
    unfold step
    simp only
    cases s.obj j <;> exact h
  | deriv j p =>
    unfold step
    simp only
    cases s.obj j <;> exact h
  | flux j p =>
    unfold step
    simp only
    cases s.obj j with
    | none => exact h
    | some o =>
      simp only
      cases o.fld.flux p <;> exact h
  | fluxDeriv j p =>
    unfold step
    simp only
    cases s.obj j with
    | none => exact h
    | some o =>
      simp only
      cases o.fld.flux p <;> exact h
  | toNumeric j pts f =>
    unfold step
    simp only
    cases s.obj j with
    | none => exact h
    | some o =>
      simp only
      split
      · exact h
      · exact hal _ _
  | destroy j =>
    unfold step
    simp only
    cases ho : s.obj j with
    | none => exact h
    | some o => exact hset _ j _ o ho

theorem dead_quiet (s : St P V D J F) (op : Op P V D J F) (i k : Nat) (b : Bool) (h : s.obj i = none)
    (hu : (step s op).1 ≠ .ub) : ¬ touches b i k op := by
  intro ht
  cases op <;> first | exact ht | (obtain ⟨rfl, -⟩ := ht; exact hu (by simp [step, h]))

theorem run_dead : ∀ (ops : List (Op P V D J F)) (s t : St P V D J F) (i k : Nat) (b : Bool)
    (_ : i < s.objs.length) (_ : s.obj i = none) (_ : run s ops = some t), ∀ op ∈ ops, ¬ touches b i k op
  | [], _, _, _, _, _, _, _, _ => by simp
  | op :: rest, s, t, i, k, b, hi, h, hr => by
    unfold run at hr
    split at hr
    · cases hr
    · rename_i hu
      intro op' hop
      cases hop with
      | head => exact dead_quiet s op i k b h (fun e => hu e)
      | tail _ hm =>
        exact run_dead rest _ t i k b (lt_of_lt_of_le hi (step_objs s op)) (step_dead s op i hi h) hr op' hm

theorem look_of (s : St P V D J F) (a : Nat) (c : Content V D J F) (h : s.mem[a]? = some ⟨true, some c⟩) :
    look s a = some c := by
  unfold look
  rw [h]

/-- Any state reached by a program. -/
def Reached (s : St P V D J F) : Prop := ∃ ops, run St.init ops = some s

theorem Reached.inv {s : St P V D J F} (h : Reached s) : Inv s := by
  obtain ⟨ops, hr⟩ := h
  exact run_inv ops _ s init_inv hr

/-- Cells after an operation, and the rest of the program. -/
theorem later (s : St P V D J F) (h : Inv s) (op : Op P V D J F) (i : Nat) (o : Obj P V D J F) (ho : s.obj i = some o)
    (k : Nat) (hk : k < 4) (c : Cell V D J F) (hc : (step s op).2.mem[4 * i + k]? = some c)
    (rest : List (Op P V D J F)) (t : St P V D J F) (hr : run (step s op).2 rest = some t)
    (hq : ∀ op ∈ rest, ¬ touches o.fld.numeric i k op) : t.mem[4 * i + k]? = some c := by
  have hi := obj_lt s i o ho
  have hkind : Kind s i o.fld.numeric := by
    intro o' ho'
    rw [ho] at ho'
    cases ho'
    rfl
  rw [run_frame rest _ t (step_inv s op h) i k o.fld.numeric (lt_of_lt_of_le hi (step_objs s op)) hk
    (step_kind s op i _ hi hkind) hq hr]
  exact hc

end Softlib.Magnetic.Result

namespace Softlib

open Softlib.Magnetic Softlib.Magnetic.Result

variable {P V D J F : Type}

/-- C107.  The vector returned by `Eval` shows the field in the point asked for, whatever else the program does, as long
as that object is not evaluated again with `Eval`, nor, if it is a numerical field, with `EvalDerivatives`, nor, if it is
an analytical one, converted with `ToNumeric2D`, nor destroyed. -/
theorem C107_vector (s : St P V D J F) (hs : Reached s) (i : Nat) (p : P) (o : Obj P V D J F) (ho : s.obj i = some o)
    (rest : List (Op P V D J F)) (t : St P V D J F) (hr : run (step s (.eval i p)).2 rest = some t)
    (hq : ∀ op ∈ rest, (∀ q, op ≠ .eval i q) ∧ (o.fld.numeric = true → ∀ q, op ≠ .deriv i q) ∧
      (∀ l f, op ≠ .toNumeric i l f) ∧ op ≠ .destroy i) :
    ∃ a, (step s (.eval i p)).1 = .ptr a ∧ look t a = some (.vec (o.fld.vec p)) := by
  have h := hs.inv
  have ha := h.at_ i o ho
  have hi := obj_lt s i o ho
  have hlen := h.len
  refine ⟨o.vec, by simp [step, ho], ?_⟩
  rw [ha.1]
  apply look_of
  refine later s h (.eval i p) i o ho 0 (by omega) _ ?_ rest t hr ?_
  · simp only [step, ho]
    rw [ha.1]
    exact write_eq _ _ _ (by omega)
  · intro op hop ht
    obtain ⟨h1, h2, h3, h4⟩ := hq op hop
    cases op <;> simp only [touches] at ht
    · obtain ⟨rfl, -⟩ := ht
      exact h1 _ rfl
    · obtain ⟨rfl, hc⟩ := ht
      exact h2 (by simpa using hc) _ rfl
    · omega
    · obtain ⟨rfl, -⟩ := ht
      exact h3 _ _ rfl
    · obtain ⟨rfl, -⟩ := ht
      exact h4 rfl

/-- C107.  The structure returned by `EvalDerivatives`, with the Jacobian it points to, shows the values in the point
asked for until the object is evaluated again with `EvalDerivatives` or destroyed. -/
theorem C107_derivatives (s : St P V D J F) (hs : Reached s) (i : Nat) (p : P) (o : Obj P V D J F) (ho : s.obj i = some o)
    (rest : List (Op P V D J F)) (t : St P V D J F) (hr : run (step s (.deriv i p)).2 rest = some t)
    (hq : ∀ op ∈ rest, (∀ q, op ≠ .deriv i q) ∧ op ≠ .destroy i) :
    ∃ a j, (step s (.deriv i p)).1 = .ptr a ∧ look t a = some (.data (o.fld.data p) j) ∧
      look t j = some (.jac (o.fld.jac p)) := by
  have h := hs.inv
  have ha := h.at_ i o ho
  have hi := obj_lt s i o ho
  have hlen := h.len
  have hm : ∀ b : Bool, (if b then write s.mem o.vec (.vec (o.fld.vec p)) else s.mem).length = s.mem.length := by
    intro b
    cases b
    · rfl
    · exact write_len _ _ _
  have hquiet : ∀ k, k = 1 ∨ k = 2 → ∀ op ∈ rest, ¬ touches o.fld.numeric i k op := by
    intro k hk op hop ht
    obtain ⟨h1, h2⟩ := hq op hop
    cases op <;> simp only [touches] at ht
    · omega
    · obtain ⟨rfl, -⟩ := ht
      exact h1 _ rfl
    · omega
    · omega
    · obtain ⟨rfl, -⟩ := ht
      exact h2 rfl
  refine ⟨o.data, o.jac, by simp [step, ho], ?_, ?_⟩
  · rw [ha.2.2.1]
    apply look_of
    refine later s h (.deriv i p) i o ho 2 (by omega) _ ?_ rest t hr (hquiet 2 (by omega))
    simp only [step, ho, writeDeriv]
    rw [ha.2.2.1]
    exact write_eq _ _ _ (by rw [write_len, hm]; omega)
  · rw [ha.2.1]
    apply look_of
    refine later s h (.deriv i p) i o ho 1 (by omega) _ ?_ rest t hr (hquiet 1 (by omega))
    simp only [step, ho, writeDeriv]
    rw [write_ne _ _ _ _ (by omega), ha.2.1]
    exact write_eq _ _ _ (by rw [hm]; omega)

/-- C107.  In a copy of the structure the pointer to the Jacobian is the one of the object: it shows the Jacobian in the
point asked for until the object is evaluated again with `EvalDerivatives` or, for a numerical field, destroyed. -/
theorem C107_copy (s : St P V D J F) (hs : Reached s) (i : Nat) (p : P) (o : Obj P V D J F) (ho : s.obj i = some o)
    (rest : List (Op P V D J F)) (t : St P V D J F) (hr : run (step s (.deriv i p)).2 rest = some t)
    (hq : ∀ op ∈ rest, (∀ q, op ≠ .deriv i q) ∧ (o.fld.numeric = true → op ≠ .destroy i)) :
    ∃ a j, (step s (.deriv i p)).1 = .ptr a ∧ look (step s (.deriv i p)).2 a = some (.data (o.fld.data p) j) ∧
      look t j = some (.jac (o.fld.jac p)) := by
  have h := hs.inv
  have ha := h.at_ i o ho
  have hi := obj_lt s i o ho
  have hlen := h.len
  have hm : ∀ b : Bool, (if b then write s.mem o.vec (.vec (o.fld.vec p)) else s.mem).length = s.mem.length := by
    intro b
    cases b
    · rfl
    · exact write_len _ _ _
  obtain ⟨a, j, h1, h2, -⟩ := C107_derivatives s hs i p o ho [] _ rfl (by simp)
  refine ⟨o.data, o.jac, by simp [step, ho], ?_, ?_⟩
  · apply look_of
    simp only [step, ho, writeDeriv]
    exact write_eq _ _ _ (by rw [write_len, hm]; omega)
  · rw [ha.2.1]
    apply look_of
    refine later s h (.deriv i p) i o ho 1 (by omega) _ ?_ rest t hr ?_
    · simp only [step, ho, writeDeriv]
      rw [write_ne _ _ _ _ (by omega), ha.2.1]
      exact write_eq _ _ _ (by rw [hm]; omega)
    · intro op hop ht
      obtain ⟨h1, h2⟩ := hq op hop
      cases op <;> simp only [touches] at ht
      · omega
      · obtain ⟨rfl, -⟩ := ht
        exact h1 _ rfl
      · omega
      · omega
      · obtain ⟨rfl, hc⟩ := ht
        exact h2 (by simpa using hc) rfl

/-- C107.  The flux returned by `EvalFluxDerivatives` stays until that function is called again on the object or the
object is destroyed. -/
theorem C107_flux (s : St P V D J F) (hs : Reached s) (i : Nat) (p : P) (o : Obj P V D J F) (ho : s.obj i = some o)
    (f : F) (hf : o.fld.flux p = some f)
    (rest : List (Op P V D J F)) (t : St P V D J F) (hr : run (step s (.fluxDeriv i p)).2 rest = some t)
    (hq : ∀ op ∈ rest, (∀ q, op ≠ .fluxDeriv i q) ∧ op ≠ .destroy i) :
    ∃ a, (step s (.fluxDeriv i p)).1 = .ptr a ∧ look t a = some (.flux f) := by
  have h := hs.inv
  have ha := h.at_ i o ho
  have hi := obj_lt s i o ho
  have hlen := h.len
  refine ⟨o.flux, by simp [step, ho, hf], ?_⟩
  rw [ha.2.2.2]
  apply look_of
  refine later s h (.fluxDeriv i p) i o ho 3 (by omega) _ ?_ rest t hr ?_
  · simp only [step, ho, hf]
    rw [ha.2.2.2]
    exact write_eq _ _ _ (by omega)
  · intro op hop ht
    obtain ⟨h1, h2⟩ := hq op hop
    cases op <;> simp only [touches] at ht
    · omega
    · omega
    · obtain ⟨rfl, -⟩ := ht
      exact h1 _ rfl
    · omega
    · obtain ⟨rfl, -⟩ := ht
      exact h2 rfl

/-! ### after overwriting -/

/-- The addresses an object returns do not depend on when. -/
theorem Magnetic.Result.same_places (s t : St P V D J F) (hs : Reached s) (ht : Reached t) (i : Nat)
    (o o' : Obj P V D J F) (ho : s.obj i = some o) (ho' : t.obj i = some o') :
    o.vec = o'.vec ∧ o.jac = o'.jac ∧ o.data = o'.data ∧ o.flux = o'.flux := by
  have h1 := hs.inv.at_ i o ho
  have h2 := ht.inv.at_ i o' ho'
  omega

/-- C107.  **What a pointer to the vector shows** after the object has been evaluated again: the field in the new point,
both with `Eval` and, for a numerical field, with `EvalDerivatives`; and after `ToNumeric2D` the field in the last point
of its grid. -/
theorem C107_vector_overwritten (s t : St P V D J F) (hs : Reached s) (ht : Reached t) (i : Nat) (p : P)
    (o o' : Obj P V D J F) (ho : s.obj i = some o) (ho' : t.obj i = some o') :
    ∃ a, (step s (.eval i p)).1 = .ptr a ∧
      (∀ q, look (step t (.eval i q)).2 a = some (.vec (o'.fld.vec q))) ∧
      (o'.fld.numeric = true → ∀ q, look (step t (.deriv i q)).2 a = some (.vec (o'.fld.vec q))) ∧
      (o'.fld.numeric = false → ∀ pts f q, pts.getLast? = some q →
        look (step t (.toNumeric i pts f)).2 a = some (.vec (o'.fld.vec q))) := by
  have hp := same_places s t hs ht i o o' ho ho'
  have h := ht.inv
  have ha := h.at_ i o' ho'
  have hi := obj_lt t i o' ho'
  have hlen := h.len
  refine ⟨o.vec, by simp [step, ho], ?_, ?_, ?_⟩
  · intro q
    apply look_of
    simp only [step, ho']
    rw [hp.1]
    exact write_eq _ _ _ (by omega)
  · intro hn q
    apply look_of
    simp only [step, ho', writeDeriv]
    rw [hp.1, write_ne _ _ _ _ (by omega), write_ne _ _ _ _ (by omega), if_pos hn]
    exact write_eq _ _ _ (by omega)
  · intro hn pts f q hq
    apply look_of
    simp only [step, ho', hn, Bool.false_eq_true, if_false]
    rw [alloc_mem _ _ _ (by rw [writeAll_len]; omega), hp.1]
    exact writeAll_eq o' pts t.mem (by omega) q hq

/-- C107.  **What the Jacobian of a copy shows** after the object has been evaluated again: the Jacobian in the new
point. -/
theorem C107_copy_overwritten (s t : St P V D J F) (hs : Reached s) (ht : Reached t) (i : Nat) (p : P)
    (o o' : Obj P V D J F) (ho : s.obj i = some o) (ho' : t.obj i = some o') :
    ∃ a j, (step s (.deriv i p)).1 = .ptr a ∧ look (step s (.deriv i p)).2 a = some (.data (o.fld.data p) j) ∧
      ∀ q, look (step t (.deriv i q)).2 j = some (.jac (o'.fld.jac q)) := by
  have hp := same_places s t hs ht i o o' ho ho'
  obtain ⟨a, j, h1, h2, -⟩ := C107_copy s hs i p o ho [] _ rfl (by simp)
  have hj : j = o.jac := by
    simp only [step, ho, Out.ptr.injEq] at h1
    subst h1
    have hlen := hs.inv.len
    have hi := obj_lt s i o ho
    have ha := hs.inv.at_ i o ho
    have := look_of (step s (.deriv i p)).2 o.data (.data (o.fld.data p) o.jac) (by
      simp only [step, ho, writeDeriv]
      refine write_eq _ _ _ ?_
      rw [write_len]
      split
      · rw [write_len]; omega
      · omega)
    rw [this] at h2
    simp only [Option.some.injEq, Content.data.injEq, true_and] at h2
    exact h2.symm
  refine ⟨a, j, h1, h2, ?_⟩
  intro q
  have h := ht.inv
  have ha := h.at_ i o' ho'
  have hi := obj_lt t i o' ho'
  have hlen := h.len
  apply look_of
  simp only [step, ho', writeDeriv]
  rw [hj, hp.2.1, write_ne _ _ _ _ (by omega)]
  refine write_eq _ _ _ ?_
  split
  · rw [write_len]; omega
  · omega

/-- C107.  **What pointers show after the object has been destroyed**, whatever the program does then: nothing, the
behaviour is undefined; but the Jacobian of an analytical field, which is never released, stays as it is. -/
theorem C107_destroyed (s : St P V D J F) (hs : Reached s) (i : Nat) (o : Obj P V D J F) (ho : s.obj i = some o)
    (rest : List (Op P V D J F)) (t : St P V D J F) (hr : run (step s (.destroy i)).2 rest = some t) :
    look t o.vec = none ∧ look t o.data = none ∧ look t o.flux = none ∧
      look t o.jac = if o.fld.numeric then none else look s o.jac := by
  have h := hs.inv
  have ha := h.at_ i o ho
  have hi := obj_lt s i o ho
  have hlen := h.len
  have hdead : (step s (.destroy i)).2.obj i = none := by
    simp only [step, ho]
    rw [obj_set s _ i none i hi, if_pos rfl]
  have hq := fun k => run_dead rest (step s (.destroy i)).2 t i k o.fld.numeric
    (lt_of_lt_of_le hi (step_objs s _)) hdead hr
  have hno : ∀ (a : Nat), t.mem[a]? = some ⟨false, none⟩ → look t a = none := by
    intro a hc
    unfold look
    rw [hc]
  have hrel : ∀ (m : List (Cell V D J F)) (b : Nat) (_ : b ≠ o.jac), (if o.fld.numeric then release m o.jac else m)[b]? = m[b]? := by
    intro m b hb
    split
    · exact release_ne _ _ _ (fun e => hb e.symm)
    · rfl
  refine ⟨hno _ ?_, hno _ ?_, hno _ ?_, ?_⟩
  · rw [ha.1]
    refine later s h (.destroy i) i o ho 0 (by omega) _ ?_ rest t hr (hq 0)
    simp only [step, ho, releaseAll]
    rw [hrel _ _ (by omega), release_ne _ _ _ (by omega), release_ne _ _ _ (by omega), ha.1]
    exact release_eq _ _ (by omega)
  · rw [ha.2.2.1]
    refine later s h (.destroy i) i o ho 2 (by omega) _ ?_ rest t hr (hq 2)
    simp only [step, ho, releaseAll]
    rw [hrel _ _ (by omega), release_ne _ _ _ (by omega), ha.2.2.1]
    exact release_eq _ _ (by rw [release_len]; omega)
  · rw [ha.2.2.2]
    refine later s h (.destroy i) i o ho 3 (by omega) _ ?_ rest t hr (hq 3)
    simp only [step, ho, releaseAll]
    rw [hrel _ _ (by omega), ha.2.2.2]
    exact release_eq _ _ (by rw [release_len, release_len]; omega)
  · cases hn : o.fld.numeric with
    | true =>
      rw [if_pos rfl]
      apply hno
      rw [ha.2.1]
      refine later s h (.destroy i) i o ho 1 (by omega) _ ?_ rest t hr (hq 1)
      simp only [step, ho, releaseAll, hn, if_true]
      rw [ha.2.1]
      exact release_eq _ _ (by rw [release_len, release_len, release_len]; omega)
    | false =>
      have hc : t.mem[4 * i + 1]? = s.mem[4 * i + 1]? := by
        obtain ⟨c, hc⟩ : ∃ c, s.mem[4 * i + 1]? = some c := ⟨s.mem[4 * i + 1], List.getElem?_eq_getElem (by omega)⟩
        rw [hc]
        refine later s h (.destroy i) i o ho 1 (by omega) _ ?_ rest t hr (hq 1)
        simp only [step, ho, releaseAll, hn, Bool.false_eq_true, if_false]
        rw [release_ne _ _ _ (by omega), release_ne _ _ _ (by omega), release_ne _ _ _ (by omega)]
        exact hc
      unfold look
      rw [ha.2.1, hc]
      rfl

/-- C107.  What `ToNumeric2D` makes is a new object with places of its own, a numerical field whatever is said about `f`; the
conversion of an analytical field is the one operation that leaves the value of the last point in the vector. -/
theorem C107_converted (s : St P V D J F) (hs : Reached s) (i : Nat) (o : Obj P V D J F) (ho : s.obj i = some o)
    (hn : o.fld.numeric = false) (pts : List P) (f : Fld P V D J F) :
    ∃ t c, step s (.toNumeric i pts f) = (.object s.objs.length, t) ∧ t.obj s.objs.length = some c ∧ c.fld.numeric = true ∧
      c.fld.vec = f.vec ∧ c.fld.data = f.data ∧ c.fld.jac = f.jac ∧ c.fld.flux = f.flux ∧
      t.obj i = some o ∧ c.vec ≠ o.vec ∧ c.jac ≠ o.jac ∧ c.data ≠ o.data ∧ c.flux ≠ o.flux := by
  have ha := hs.inv.at_ i o ho
  have hi := obj_lt s i o ho
  have hlen := hs.inv.len
  have hw : ∀ (pts : List P) (m : List (Cell V D J F)), (writeAll m o pts).length = m.length := by
    intro pts
    induction pts with
    | nil => intro m; rfl
    | cons p rest ih => intro m; rw [writeAll, ih, write_len]
  refine ⟨alloc ⟨writeAll s.mem o pts, s.objs⟩ { f with numeric := true },
    ⟨{ f with numeric := true }, (writeAll s.mem o pts).length, (writeAll s.mem o pts).length + 1, (writeAll s.mem o pts).length + 2,
      (writeAll s.mem o pts).length + 3⟩, ?_, ?_, rfl, rfl, rfl, rfl, rfl, ?_, ?_⟩
  · simp only [step, ho, hn, Bool.false_eq_true, if_false]
  · simp only [alloc, St.obj, List.getElem?_append_right (Nat.le_refl _), Nat.sub_self, List.getElem?_cons_zero, Option.join]
    rfl
  · simp only [alloc, St.obj]
    rw [List.getElem?_append_left hi]
    exact ho
  · simp only [hw]
    obtain ⟨a1, a2, a3, a4⟩ := ha
    rw [a1, a2, a3, a4]
    omega

/-! ### the claim -/

/-- C107 fails as stated.  For every numerical field whose value, or whose Jacobian, is not the same in two points: the
vector returned by `Eval` changes when another function, `EvalDerivatives`, is called; and the Jacobian of a copied
result changes, and can no longer be used after the object has been destroyed. -/
theorem C107_refuted (f : Fld P V D J F) (hn : f.numeric = true) (p q : P) (hv : f.vec p ≠ f.vec q)
    (hj : f.jac p ≠ f.jac q) :
    (∃ s t a v, run St.init [.make f, .eval 0 p] = some s ∧ run s [.deriv 0 q] = some t ∧
      look s a = some (.vec (f.vec p)) ∧ look t a = some (.vec v) ∧ v ≠ f.vec p) ∧
    (∃ s t u a j w, run St.init [.make f, .deriv 0 p] = some s ∧ run s [.deriv 0 q] = some t ∧
      run s [.destroy 0] = some u ∧ look s a = some (.data (f.data p) j) ∧ look s j = some (.jac (f.jac p)) ∧
      look t j = some (.jac w) ∧ w ≠ f.jac p ∧ look u j = none) := by
  constructor
  · refine ⟨_, _, 0, f.vec q, rfl, rfl, rfl, ?_, fun e => hv e.symm⟩
    simp [look, step, alloc, St.obj, St.init, writeDeriv, write, hn]
  · refine ⟨_, _, _, 2, 1, f.jac q, rfl, rfl, rfl, ?_, ?_, ?_, fun e => hj e.symm, ?_⟩
    · simp [look, step, alloc, St.obj, St.init, writeDeriv, write, hn]
    · simp [look, step, alloc, St.obj, St.init, writeDeriv, write, hn]
    · simp [look, step, alloc, St.obj, St.init, writeDeriv, write, hn]
    · simp [look, step, alloc, St.obj, St.init, writeDeriv, write, hn, releaseAll, release]

/-- C107.  `EvalDerivatives` of a numerical field leaves in the vector the value `Eval` gives. -/
theorem C107_numeric_vector (g : NGrid) (p : ℝ × ℝ × ℝ) : (ofN g).vec p = g.eval p.1 p.2.1 p.2.2 := rfl

/-- A field with different values. -/
example : ∃ s t, run (St.init : St Bool Bool Bool Bool Bool)
      [.make ⟨true, id, id, id, some⟩, .make ⟨false, not, id, id, some⟩] = some s ∧
    run (step s (.eval 0 true)).2 [.eval 1 true, .fluxDeriv 0 false, .clone 0, .deriv 2 false] = some t ∧
    look t 0 = some (.vec true) := ⟨_, _, rfl, rfl, rfl⟩

end Softlib
