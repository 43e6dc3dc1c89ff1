/-
Memory of CODE and GO+CODE distribution functions (C104).
-/
import Verif.Dist.CodeMemModel

namespace Softlib.Dist.CodeMem

/-! ### Lists of objects -/

/-- What the objects that are still there contribute. -/
def allOf {α : Type} (g : α → List Nat) : List (Option α) → List Nat
  | [] => []
  | some x :: l => g x ++ allOf g l
  | none :: l => allOf g l

def optOf {α : Type} (g : α → List Nat) : Option α → List Nat
  | some x => g x
  | none => []

theorem allOf_count_set {α : Type} (g : α → List Nat) (b : Nat) (y : Option α) (x : Option α) :
    ∀ (l : List (Option α)) (i : Nat), l[i]? = some x →
      (allOf g (l.set i y)).count b + (optOf g x).count b = (allOf g l).count b + (optOf g y).count b := by
  intro l
  induction l with
  | nil => intro i h; simp at h
  | cons z l ih =>
    intro i h
    cases i with
    | zero =>
      simp only [List.getElem?_cons_zero, Option.some.injEq] at h
      subst h
      cases y <;> cases z <;> simp [allOf, optOf, List.count_append] <;> omega
    | succ i =>
      simp only [List.getElem?_cons_succ] at h
      have := ih i h
      cases z <;> simp [allOf, List.count_append] <;> omega

theorem allOf_append {α : Type} (g : α → List Nat) (y : Option α) (l : List (Option α)) :
    allOf g (l ++ [y]) = allOf g l ++ optOf g y := by
  induction l with
  | nil => cases y <;> simp [allOf, optOf]
  | cons z l ih => cases z <;> simp [allOf, ih]

theorem mem_allOf {α : Type} (g : α → List Nat) (b : Nat) (l : List (Option α)) :
    b ∈ allOf g l ↔ ∃ x, some x ∈ l ∧ b ∈ g x := by
  induction l with
  | nil => simp [allOf]
  | cons z l ih =>
    cases z with
    | none => simp [allOf, ih]
    | some x => simp [allOf, ih]

/-- The blocks that belong to one object only. -/
def CObj.excl (o : CObj) : List Nat := o.leg.toList ++ o.accel.toList ++ o.slots.filterMap id ++ o.interp.toList

/-- The arrays, which clones share. -/
def CObj.shared (o : CObj) : List Nat := o.f.toList ++ o.p.toList

def GObj.excl (g : GObj) : List Nat := g.rho.toList ++ g.code.toList

def CWorld.exclAll (w : CWorld) : List Nat := allOf CObj.excl w.objs ++ allOf GObj.excl w.gobjs

/-- An object as `Initialize` leaves it, or with all pointers null. -/
structure CObj.WF (o : CObj) : Prop where
  none : o.interp = none → o.slots = []
  blocks : ∃ l, o.interpBlocks = some (l ++ o.interp.toList) ∧ l = o.slots.filterMap id
  dims : ∀ np nleg, o.dims = some (np, nleg) → nleg ≤ np ∧ (o.known = true ∨ nleg = 0)
  pf : ∀ b, o.p = some b → o.f ≠ some b

structure CInv (w : CWorld) : Prop where
  cnt : ∀ b, w.freed.count b + w.exclAll.count b ≤ 1
  ltf : ∀ b ∈ w.freed, b < w.next
  lte : ∀ b ∈ w.exclAll, b < w.next
  sh : ∀ o, some o ∈ w.objs → ∀ b ∈ o.shared, b < w.next ∧ b ∉ w.freed ∧ b ∉ w.exclAll
  wf : ∀ o, some o ∈ w.objs → o.WF

theorem CInv.empty : CInv CWorld.empty :=
  ⟨by intro b; simp [CWorld.empty, CWorld.exclAll, allOf], by simp [CWorld.empty], by simp [CWorld.empty, CWorld.exclAll, allOf],
    by simp [CWorld.empty], by simp [CWorld.empty]⟩

theorem live_iff (w : CWorld) (b : Nat) : w.live b = true ↔ b < w.next ∧ b ∉ w.freed := by
  simp [CWorld.live]

theorem freeAllC_iff (w : CWorld) (l : List Nat) (w' : CWorld) :
    w.freeAll l = some w' ↔ (l.Nodup ∧ ∀ b ∈ l, w.live b = true) ∧ w' = { w with freed := l.reverse ++ w.freed } := by
  induction l generalizing w with
  | nil =>
    simp only [CWorld.freeAll, Option.some.injEq, List.nodup_nil, List.not_mem_nil, false_implies, implies_true, true_and, List.reverse_nil,
      List.nil_append]
    exact ⟨Eq.symm, Eq.symm⟩
  | cons a l ih =>
    unfold CWorld.freeAll
    by_cases h : w.live a = true
    · rw [if_pos h, ih]
      have hl : ∀ b, CWorld.live { w with freed := a :: w.freed } b = true ↔ w.live b = true ∧ b ≠ a := by
        intro b
        simp only [live_iff, List.mem_cons, not_or]
        constructor
        · rintro ⟨h1, h2, h3⟩; exact ⟨⟨h1, h3⟩, h2⟩
        · rintro ⟨⟨h1, h3⟩, h2⟩; exact ⟨h1, h2, h3⟩
      constructor
      · rintro ⟨⟨h1, h2⟩, h3⟩
        refine ⟨⟨?_, ?_⟩, ?_⟩
        · rw [List.nodup_cons]
          refine ⟨fun hc => ?_, h1⟩
          exact ((hl a).mp (h2 a hc)).2 rfl
        · intro b hb
          rcases List.mem_cons.mp hb with rfl | hb
          · exact h
          · exact ((hl b).mp (h2 b hb)).1
        · rw [h3]; simp
      · rintro ⟨⟨h1, h2⟩, h3⟩
        rw [List.nodup_cons] at h1
        refine ⟨⟨h1.2, ?_⟩, ?_⟩
        · intro b hb
          refine (hl b).mpr ⟨h2 b (List.mem_cons_of_mem _ hb), ?_⟩
          rintro rfl
          exact h1.1 hb
        · rw [h3]; simp
    · rw [if_neg h]
      constructor
      · intro hc; cases hc
      · rintro ⟨⟨-, h2⟩, -⟩
        exact absurd (h2 a List.mem_cons_self) h

theorem excl_in (w : CWorld) (i : Nat) (o : CObj) (h : w.objs[i]? = some (some o)) (b : Nat) (hb : b ∈ o.excl) : b ∈ w.exclAll := by
  unfold CWorld.exclAll
  rw [List.mem_append, mem_allOf]
  exact Or.inl ⟨o, List.mem_of_getElem? h, hb⟩

theorem excl_le (w : CWorld) (i : Nat) (o : CObj) (h : w.objs[i]? = some (some o)) (b : Nat) :
    o.excl.count b ≤ (allOf CObj.excl w.objs).count b := by
  have := allOf_count_set CObj.excl b none (some o) w.objs i h
  simp [optOf] at this
  omega

/-! ### Initialize -/

theorem filterMap_somes (l : List Nat) (k : Nat) :
    ((l.map some) ++ List.replicate k none).filterMap id = l := by
  rw [List.filterMap_append]
  have h1 : (l.map some).filterMap id = l := by
    induction l with
    | nil => rfl
    | cons a l ih => simp [ih]
  have h2 : (List.replicate k (none : Option Nat)).filterMap id = [] := by
    induction k with
    | zero => rfl
    | succ k ih => simp
  rw [h1, h2, List.append_nil]

theorem firstSlots_somes (l : List Nat) (r : List (Option Nat)) : firstSlots l.length (l.map some ++ r) = some l := by
  induction l with
  | nil => rfl
  | cons a l ih => simp [firstSlots, ih]

/-- The blocks made by `Initialize`. -/
def newIdx (n k : Nat) : List Nat := (List.range k).map (n + ·)

theorem mem_newIdx (n k b : Nat) : b ∈ newIdx n k ↔ n ≤ b ∧ b < n + k := by
  unfold newIdx
  rw [List.mem_map]
  constructor
  · rintro ⟨a, h, rfl⟩
    rw [List.mem_range] at h
    omega
  · rintro ⟨h1, h2⟩
    exact ⟨b - n, by rw [List.mem_range]; omega, by omega⟩

theorem newIdx_nodup (n k : Nat) : (newIdx n k).Nodup := by
  unfold newIdx List.Nodup
  rw [List.pairwise_map]
  exact List.Pairwise.imp (fun h => by omega) List.nodup_range

theorem cInit_ok (w : CWorld) (o : CObj) (np nleg p f : Nat) (known : Bool) (h1 : nleg ≤ np) (h2 : known = true ∨ nleg = 0)
    (hp : w.live p = true) (hf : w.live f = true) :
    cInit w o np nleg (some p) (some f) known =
      .ok ⟨some (np, nleg), some p, some f, some w.next, some (w.next + 1), some (w.next + 2),
        (newIdx (w.next + 3) nleg).map some ++ List.replicate (np - nleg) none, known⟩ (w.next + 3 + nleg) := by
  unfold cInit
  dsimp only
  by_cases h0 : nleg = 0
  · subst h0
    rw [if_pos rfl]
    simp [newIdx]
  · rw [if_neg h0]
    have hk : ¬known = false := by
      rcases h2 with h2 | h2
      · simp [h2]
      · exact absurd h2 h0
    rw [if_neg hk, if_neg (by omega), if_pos ⟨hp, hf⟩]
    simp [newIdx, Function.comp_def]

/-- The object that `Initialize` makes. -/
def madeObj (n np nleg p f : Nat) (known : Bool) : CObj :=
  ⟨some (np, nleg), some p, some f, some n, some (n + 1), some (n + 2), (newIdx (n + 3) nleg).map some ++ List.replicate (np - nleg) none, known⟩

theorem madeObj_excl (n np nleg p f : Nat) (known : Bool) :
    (madeObj n np nleg p f known).excl = n :: (n + 1) :: (newIdx (n + 3) nleg ++ [n + 2]) := by
  simp only [CObj.excl, madeObj, filterMap_somes, Option.toList_some]
  rfl

theorem newIdx_length (n k : Nat) : (newIdx n k).length = k := by simp [newIdx]

theorem madeObj_wf (n np nleg p f : Nat) (known : Bool) (h1 : nleg ≤ np) (h2 : known = true ∨ nleg = 0) (hpf : p ≠ f) :
    (madeObj n np nleg p f known).WF := by
  refine ⟨?_, ?_, ?_, ?_⟩
  · intro h; cases h
  · refine ⟨newIdx (n + 3) nleg, ?_, ?_⟩
    · simp only [CObj.interpBlocks, madeObj]
      have := firstSlots_somes (newIdx (n + 3) nleg) (List.replicate (np - nleg) none)
      rw [newIdx_length] at this
      rw [this]
      rfl
    · simp only [madeObj, filterMap_somes]
  · intro a b h
    simp only [madeObj, Option.some.injEq, Prod.mk.injEq] at h
    obtain ⟨rfl, rfl⟩ := h
    exact ⟨h1, h2⟩
  · intro b h
    simp only [madeObj, Option.some.injEq] at h ⊢
    subst h
    exact fun h => hpf (Option.some.inj h).symm

theorem madeObj_count (n np nleg p f : Nat) (known : Bool) (b : Nat) :
    (madeObj n np nleg p f known).excl.count b ≤ 1 ∧
      (0 < (madeObj n np nleg p f known).excl.count b → n ≤ b ∧ b < n + 3 + nleg) := by
  rw [madeObj_excl]
  have hn : (n :: (n + 1) :: (newIdx (n + 3) nleg ++ [n + 2])).Nodup := by
    simp only [List.nodup_cons, List.mem_cons, List.mem_append, mem_newIdx, List.nodup_append, newIdx_nodup, List.not_mem_nil,
      List.nodup_nil, not_false_eq_true, and_true, true_and, or_false]
    refine ⟨by omega, by omega, ?_⟩
    intro a ha c hc
    omega
  refine ⟨List.nodup_iff_count.mp hn b, ?_⟩
  intro h
  rw [List.count_pos_iff] at h
  simp only [List.mem_cons, List.mem_append, mem_newIdx, List.not_mem_nil, or_false] at h
  omega

/-! ### What the operations keep -/

theorem CInv.more {w : CWorld} (h : CInv w) (k : Nat) : CInv { w with next := w.next + k } :=
  ⟨h.cnt, fun b hb => by have := h.ltf b hb; dsimp only; omega, fun b hb => by have := h.lte b hb; dsimp only; omega,
    fun o ho b hb => by have := h.sh o ho b hb; exact ⟨by dsimp only; omega, this.2⟩, h.wf⟩

theorem count_zero_of {b n : Nat} {l : List Nat} (h : ∀ b ∈ l, b < n) (hb : n ≤ b) : l.count b = 0 := by
  rw [List.count_eq_zero]
  intro hc
  have := h b hc
  omega

theorem CInv.notMem {w : CWorld} (h : CInv w) {b : Nat} (hb : b ∈ w.exclAll) : b ∉ w.freed := by
  intro hc
  have := h.cnt b
  have h1 := List.count_pos_iff.mpr hb
  have h2 := List.count_pos_iff.mpr hc
  omega

/-- A new object is added. -/
theorem CInv.push {w : CWorld} (h : CInv w) (np nleg p f : Nat) (known : Bool) (h1 : nleg ≤ np) (h2 : known = true ∨ nleg = 0)
    (hpf : p ≠ f) (hp : p < w.next ∧ p ∉ w.freed ∧ p ∉ w.exclAll) (hf : f < w.next ∧ f ∉ w.freed ∧ f ∉ w.exclAll) :
    CInv { w with next := w.next + 3 + nleg, objs := w.objs ++ [some (madeObj w.next np nleg p f known)] } := by
  have hc : ∀ b, (CWorld.exclAll { w with next := w.next + 3 + nleg, objs := w.objs ++ [some (madeObj w.next np nleg p f known)] }).count b =
      w.exclAll.count b + (madeObj w.next np nleg p f known).excl.count b := by
    intro b
    simp only [CWorld.exclAll, allOf_append, optOf, List.count_append]
    omega
  have hm : ∀ b, b ∈ CWorld.exclAll { w with next := w.next + 3 + nleg, objs := w.objs ++ [some (madeObj w.next np nleg p f known)] } →
      b ∈ w.exclAll ∨ (w.next ≤ b ∧ b < w.next + 3 + nleg) := by
    intro b hb
    have := List.count_pos_iff.mpr hb
    rw [hc] at this
    by_cases h0 : 0 < w.exclAll.count b
    · exact Or.inl (List.count_pos_iff.mp h0)
    · exact Or.inr ((madeObj_count w.next np nleg p f known b).2 (by omega))
  refine ⟨?_, ?_, ?_, ?_, ?_⟩
  · intro b
    rw [hc]
    have h3 := h.cnt b
    obtain ⟨h4, h5⟩ := madeObj_count w.next np nleg p f known b
    dsimp only
    rcases Nat.lt_or_ge b w.next with hb | hb
    · have : (madeObj w.next np nleg p f known).excl.count b = 0 := by
        rcases Nat.eq_zero_or_pos ((madeObj w.next np nleg p f known).excl.count b) with h6 | h6
        · exact h6
        · have := h5 h6; omega
      omega
    · rw [count_zero_of h.ltf hb, count_zero_of h.lte hb]
      omega
  · intro b hb
    have := h.ltf b hb
    dsimp only
    omega
  · intro b hb
    dsimp only
    rcases hm b hb with hb | hb
    · have := h.lte b hb; omega
    · omega
  · intro o ho b hb
    have key : b < w.next ∧ b ∉ w.freed ∧ b ∉ w.exclAll := by
      simp only [List.mem_append, List.mem_singleton, Option.some.injEq] at ho
      rcases ho with ho | rfl
      · exact h.sh o ho b hb
      · simp only [CObj.shared, madeObj, Option.toList_some, List.singleton_append, List.mem_cons, List.not_mem_nil, or_false] at hb
        rcases hb with rfl | rfl
        · exact hf
        · exact hp
    refine ⟨by dsimp only; omega, key.2.1, fun hc' => ?_⟩
    rcases hm b hc' with h6 | h6
    · exact key.2.2 h6
    · omega
  · intro o ho
    simp only [List.mem_append, List.mem_singleton, Option.some.injEq] at ho
    rcases ho with ho | rfl
    · exact h.wf o ho
    · exact madeObj_wf w.next np nleg p f known h1 h2 hpf

theorem mem_set_some {l : List (Option CObj)} {i : Nat} {y : Option CObj} {o : CObj} (h : some o ∈ l.set i y) :
    some o = y ∨ ∃ j, j ≠ i ∧ l[j]? = some (some o) := by
  obtain ⟨j, hj⟩ := List.mem_iff_getElem?.mp h
  rw [List.getElem?_set] at hj
  split at hj
  · split at hj
    · left; simpa using hj.symm
    · cases hj
  · exact Or.inr ⟨j, by omega, hj⟩

/-- An object is replaced by one that was just made. -/
theorem CInv.replace {w : CWorld} (h : CInv w) (i : Nat) (o : CObj) (hi : w.objs[i]? = some (some o))
    (np nleg p f : Nat) (known : Bool) (h1 : nleg ≤ np) (h2 : known = true ∨ nleg = 0)
    (hpf : p ≠ f) (hp : p < w.next ∧ p ∉ w.freed ∧ p ∉ w.exclAll) (hf : f < w.next ∧ f ∉ w.freed ∧ f ∉ w.exclAll) :
    CInv { w with next := w.next + 3 + nleg, objs := w.objs.set i (some (madeObj w.next np nleg p f known)) } := by
  have hc : ∀ b, (CWorld.exclAll { w with next := w.next + 3 + nleg, objs := w.objs.set i (some (madeObj w.next np nleg p f known)) }).count b ≤
      w.exclAll.count b + (madeObj w.next np nleg p f known).excl.count b := by
    intro b
    have := allOf_count_set CObj.excl b (some (madeObj w.next np nleg p f known)) (some o) w.objs i hi
    simp only [optOf] at this
    simp only [CWorld.exclAll, List.count_append]
    omega
  have hm : ∀ b, b ∈ CWorld.exclAll { w with next := w.next + 3 + nleg, objs := w.objs.set i (some (madeObj w.next np nleg p f known)) } →
      b ∈ w.exclAll ∨ (w.next ≤ b ∧ b < w.next + 3 + nleg) := by
    intro b hb
    have := List.count_pos_iff.mpr hb
    have h3 := hc b
    by_cases h0 : 0 < w.exclAll.count b
    · exact Or.inl (List.count_pos_iff.mp h0)
    · exact Or.inr ((madeObj_count w.next np nleg p f known b).2 (by omega))
  refine ⟨?_, ?_, ?_, ?_, ?_⟩
  · intro b
    have h6 := hc b
    have h3 := h.cnt b
    obtain ⟨h4, h5⟩ := madeObj_count w.next np nleg p f known b
    dsimp only at *
    rcases Nat.lt_or_ge b w.next with hb | hb
    · have : (madeObj w.next np nleg p f known).excl.count b = 0 := by
        rcases Nat.eq_zero_or_pos ((madeObj w.next np nleg p f known).excl.count b) with h6 | h6
        · exact h6
        · have := h5 h6; omega
      omega
    · have e1 := count_zero_of h.ltf hb
      have e2 := count_zero_of h.lte hb
      omega
  · intro b hb
    have := h.ltf b hb
    dsimp only
    omega
  · intro b hb
    dsimp only
    rcases hm b hb with hb | hb
    · have := h.lte b hb; omega
    · omega
  · intro o' ho b hb
    have key : b < w.next ∧ b ∉ w.freed ∧ b ∉ w.exclAll := by
      rcases mem_set_some ho with ho | ⟨j, -, ho⟩
      · injection ho with ho
        subst ho
        simp only [CObj.shared, madeObj, Option.toList_some, List.singleton_append, List.mem_cons, List.not_mem_nil, or_false] at hb
        rcases hb with rfl | rfl
        · exact hf
        · exact hp
      · exact h.sh o' (List.mem_of_getElem? ho) b hb
    refine ⟨by dsimp only; omega, key.2.1, fun hc' => ?_⟩
    rcases hm b hc' with h6 | h6
    · exact key.2.2 h6
    · omega
  · intro o' ho
    rcases mem_set_some ho with ho | ⟨j, -, ho⟩
    · injection ho with ho
      subst ho
      exact madeObj_wf w.next np nleg p f known h1 h2 hpf
    · exact h.wf o' (List.mem_of_getElem? ho)

/-- Blocks are released and their object is replaced by one that holds less. -/
theorem CInv.release {w : CWorld} (h : CInv w) (i : Nat) (o : CObj) (hi : w.objs[i]? = some (some o)) (D : List Nat) (y : Option CObj)
    (hD : ∀ b, D.count b + (optOf CObj.excl y).count b ≤ o.excl.count b ∨ (b ∈ o.shared ∧ D.count b ≤ 1 ∧ (optOf CObj.excl y).count b = 0))
    (hoth : ∀ j o', j ≠ i → w.objs[j]? = some (some o') → ∀ b ∈ o'.shared, b ∉ D)
    (hy : ∀ o', y = some o' → o'.WF ∧ o'.shared = []) :
    ∃ w1, w.freeAll D = some w1 ∧ CInv { w1 with objs := w1.objs.set i y } ∧ w1.next = w.next := by
  have hlt : ∀ b, o.excl.count b ≤ w.exclAll.count b := fun b => by
    have := excl_le w i o hi b
    simp only [CWorld.exclAll, List.count_append]
    omega
  have ho : some o ∈ w.objs := List.mem_of_getElem? hi
  have hin : ∀ b ∈ D, b < w.next ∧ b ∉ w.freed := by
    intro b hb
    have hb' := List.count_pos_iff.mpr hb
    rcases hD b with h1 | ⟨h1, -⟩
    · have := hlt b
      have hm : b ∈ w.exclAll := List.count_pos_iff.mp (by omega)
      exact ⟨h.lte b hm, h.notMem hm⟩
    · have := h.sh o ho b h1
      exact ⟨this.1, this.2.1⟩
  have hnd : D.Nodup := by
    rw [List.nodup_iff_count]
    intro b
    rcases hD b with h1 | ⟨-, h1, -⟩
    · have := hlt b
      have := h.cnt b
      omega
    · exact h1
  have hc : ∀ b, (CWorld.exclAll { w with freed := D.reverse ++ w.freed, objs := w.objs.set i y }).count b + o.excl.count b =
      w.exclAll.count b + (optOf CObj.excl y).count b := by
    intro b
    have := allOf_count_set CObj.excl b y (some o) w.objs i hi
    simp only [optOf] at this ⊢
    simp only [CWorld.exclAll, List.count_append]
    omega
  have hm : ∀ b, b ∈ CWorld.exclAll { w with freed := D.reverse ++ w.freed, objs := w.objs.set i y } → b ∈ w.exclAll := by
    intro b hb
    have h1 := List.count_pos_iff.mpr hb
    have h2 := hc b
    have h3 : (optOf CObj.excl y).count b ≤ o.excl.count b := by
      rcases hD b with h4 | ⟨-, -, h4⟩ <;> omega
    exact List.count_pos_iff.mp (by omega)
  refine ⟨_, (freeAllC_iff w D _).mpr ⟨⟨hnd, fun b hb => (live_iff w b).mpr (hin b hb)⟩, rfl⟩, ⟨?_, ?_, ?_, ?_, ?_⟩, rfl⟩
  · intro b
    have h2 := hc b
    have h3 := h.cnt b
    have h4 := hlt b
    have e : (D.reverse ++ w.freed).count b = D.count b + w.freed.count b := by
      rw [List.count_append, List.count_reverse]
    dsimp only at *
    rw [e]
    rcases hD b with h5 | ⟨h5, h6, h7⟩
    · omega
    · have h8 := h.sh o ho b h5
      have h9 : w.freed.count b = 0 := List.count_eq_zero.mpr h8.2.1
      have h10 : w.exclAll.count b = 0 := List.count_eq_zero.mpr h8.2.2
      omega
  · intro b hb
    simp only [List.mem_append, List.mem_reverse] at hb
    rcases hb with hb | hb
    · exact (hin b hb).1
    · exact h.ltf b hb
  · intro b hb
    exact h.lte b (hm b hb)
  · intro o' ho' b hb
    rcases mem_set_some ho' with e | ⟨j, hj, e⟩
    · rw [(hy o' e.symm).2] at hb
      cases hb
    · obtain ⟨h1, h2, h3⟩ := h.sh o' (List.mem_of_getElem? e) b hb
      refine ⟨h1, ?_, fun hc' => h3 (hm b hc')⟩
      simp only [List.mem_append, List.mem_reverse, not_or]
      exact ⟨hoth j o' hj e b hb, h2⟩
  · intro o' ho'
    rcases mem_set_some ho' with e | ⟨j, hj, e⟩
    · exact (hy o' e.symm).1
    · exact h.wf o' (List.mem_of_getElem? e)

/-! ### Careful programs -/

/-- Sizes `Initialize` accepts: at least as many momenta as Legendre modes, and an interpolation type
that exists. -/
def FineDims (np nleg : Nat) (known : Bool) : Prop := nleg ≤ np ∧ (known = true ∨ nleg = 0)

/-- The block is an array of the caller's that no object owns alone. -/
def FreeForUse (w : CWorld) (b : Nat) : Prop := w.live b = true ∧ b ∉ w.exclAll

/-- What a program has to see to. -/
def CarefulOp (w : CWorld) : COp → Prop
  | .new => True
  | .alloc => True
  | .init i np nleg p f known =>
    (∃ o, w.objs[i]? = some (some o)) ∧ FineDims np nleg known ∧ p ≠ f ∧ FreeForUse w p ∧ FreeForUse w f
  | .load i np nleg known => (∃ o, w.objs[i]? = some (some o)) ∧ FineDims np nleg known
  | .ctor np nleg known => FineDims np nleg known
  | .clone i => ∃ o, w.objs[i]? = some (some o) ∧ o.dims ≠ none
  | .destroy i => ∃ o, w.objs[i]? = some (some o) ∧
      ∀ j o', j ≠ i → w.objs[j]? = some (some o') → ∀ b ∈ o'.shared, b ∉ o.shared
  | .delete i => ∃ o, w.objs[i]? = some (some o)
  | .eval i => ∃ o, w.objs[i]? = some (some o) ∧ o.dims ≠ none ∧ o.p ≠ none ∧ o.f ≠ none ∧ o.leg ≠ none ∧ o.accel ≠ none ∧ o.interp ≠ none
  | .gnew => True
  | .gload i ds known => (∃ g, w.gobjs[i]? = some (some g)) ∧ ∀ d ∈ ds, FineDims d.1 d.2 known
  | .gclone i => ∃ g, w.gobjs[i]? = some (some g) ∧ g.rho ≠ none ∧ g.code ≠ none ∧
      ∀ k ∈ g.elems, ∃ o, w.objs[k]? = some (some o) ∧ o.dims ≠ none
  | .gdelete i => ∃ g, w.gobjs[i]? = some (some g) ∧ g.code ≠ none

/-- The outcome of an operation, exception or not. -/
def CRes.world : CRes → Option CWorld
  | .ok w => some w
  | .throws w => some w
  | .ub => none

/-- Careful all the way. -/
def Careful : CWorld → List COp → Prop
  | _, [] => True
  | w, op :: ops => CarefulOp w op ∧ ∀ w', (cStep w op).world = some w' → Careful w' ops

theorem CInv.fresh2 {w : CWorld} (h : CInv w) (b : Nat) (hb : w.next ≤ b) : b ∉ w.freed ∧ b ∉ w.exclAll :=
  ⟨fun hc => by have := h.ltf b hc; omega, fun hc => by have := h.lte b hc; omega⟩

theorem cCtor_inv {w : CWorld} (h : CInv w) (np nleg : Nat) (known : Bool) (hd : FineDims np nleg known) :
    cCtor w np nleg known =
      .ok { w with next := w.next + 2 + 3 + nleg, objs := w.objs ++ [some (madeObj (w.next + 2) np nleg w.next (w.next + 1) known)] } ∧
    CInv { w with next := w.next + 2 + 3 + nleg, objs := w.objs ++ [some (madeObj (w.next + 2) np nleg w.next (w.next + 1) known)] } := by
  have h2 := h.more 2
  have f1 := h.fresh2 w.next (Nat.le_refl _)
  have f2 := h.fresh2 (w.next + 1) (by omega)
  have e := cInit_ok { w with next := w.next + 2 } .fresh np nleg w.next (w.next + 1) known hd.1 hd.2
    ((live_iff _ _).mpr ⟨by dsimp only; omega, f1.1⟩) ((live_iff _ _).mpr ⟨by dsimp only; omega, f2.1⟩)
  refine ⟨?_, ?_⟩
  · unfold cCtor cInitNew
    rw [e]
    rfl
  · exact h2.push np nleg w.next (w.next + 1) known hd.1 hd.2 (by omega) ⟨by dsimp only; omega, f1⟩ ⟨by dsimp only; omega, f2⟩

theorem cClone_inv {w : CWorld} (h : CInv w) (i : Nat) (o : CObj) (hi : w.objs[i]? = some (some o)) (hd : o.dims ≠ none) :
    ∃ w', (cClone w o).world = some w' ∧ CInv w' ∧ w'.gobjs = w.gobjs ∧ (∀ (k : Nat) (x : Option CObj), w.objs[k]? = some x → w'.objs[k]? = some x) := by
  have ho : some o ∈ w.objs := List.mem_of_getElem? hi
  have hwf := h.wf o ho
  unfold cClone
  cases hdd : o.dims with
  | none => exact absurd hdd hd
  | some d =>
    obtain ⟨np, nleg⟩ := d
    dsimp only
    obtain ⟨h1, h2⟩ := hwf.dims np nleg hdd
    unfold cInitNew
    cases hp : o.p with
    | none => exact ⟨_, rfl, h.more 1, rfl, fun _ _ hk => hk⟩
    | some p =>
      cases hf : o.f with
      | none => exact ⟨_, rfl, h.more 1, rfl, fun _ _ hk => hk⟩
      | some f =>
        have sp := h.sh o ho p (by simp [CObj.shared, hp])
        have sf := h.sh o ho f (by simp [CObj.shared, hf])
        have hpf : p ≠ f := by
          intro hc
          exact hwf.pf p hp (by rw [hf, hc])
        rw [cInit_ok w .fresh np nleg p f o.known h1 h2 ((live_iff _ _).mpr ⟨sp.1, sp.2.1⟩) ((live_iff _ _).mpr ⟨sf.1, sf.2.1⟩)]
        refine ⟨_, rfl, h.push np nleg p f o.known h1 h2 hpf sp sf, rfl, ?_⟩
        intro k x hk
        dsimp only
        rw [List.getElem?_append_left (List.getElem?_eq_some_iff.mp hk).1]
        exact hk

theorem gLoadLoop_inv (known : Bool) (ds : List (Nat × Nat)) :
    ∀ w, CInv w → (∀ d ∈ ds, FineDims d.1 d.2 known) → ∃ w', gLoadLoop w known ds = .ok w' ∧ CInv w' ∧ w'.gobjs = w.gobjs := by
  induction ds with
  | nil => intro w h _; exact ⟨w, rfl, h, rfl⟩
  | cons d ds ih =>
    intro w h hd
    obtain ⟨np, nleg⟩ := d
    obtain ⟨e1, e2⟩ := cCtor_inv h np nleg known (hd (np, nleg) List.mem_cons_self)
    obtain ⟨w', e3, e4, e5⟩ := ih _ e2 (fun d h' => hd d (List.mem_cons_of_mem _ h'))
    refine ⟨w', ?_, e4, e5⟩
    unfold gLoadLoop
    rw [e1]
    exact e3

theorem gCloneLoop_inv (ks : List Nat) :
    ∀ w, CInv w → (∀ k ∈ ks, ∃ o, w.objs[k]? = some (some o) ∧ o.dims ≠ none) →
      ∃ w', (gCloneLoop w ks).world = some w' ∧ CInv w' ∧ w'.gobjs = w.gobjs := by
  induction ks with
  | nil => intro w h _; exact ⟨w, rfl, h, rfl⟩
  | cons k ks ih =>
    intro w h hd
    obtain ⟨o, h1, h2⟩ := hd k List.mem_cons_self
    obtain ⟨w', e1, e2, e3, e4⟩ := cClone_inv h k o h1 h2
    unfold gCloneLoop
    rw [h1]
    dsimp only
    cases hc : cClone w o with
    | ub => rw [hc] at e1; cases e1
    | throws w1 =>
      rw [hc] at e1
      injection e1 with e1
      subst e1
      exact ⟨_, rfl, e2, e3⟩
    | ok w1 =>
      rw [hc] at e1
      injection e1 with e1
      subst e1
      dsimp only
      obtain ⟨w', e5, e6, e7⟩ := ih w1 e2 (fun k' hk' => by
        obtain ⟨o', h3, h4⟩ := hd k' (List.mem_cons_of_mem _ hk')
        exact ⟨o', e4 _ _ h3, h4⟩)
      exact ⟨w', e5, e6, e7.trans e3⟩

/-! The GO+CODE objects are not looked at by what happens to the CODE objects. -/

def CRes.setG (G : List (Option GObj)) : CRes → CRes
  | .ok w => .ok { w with gobjs := G }
  | .throws w => .throws { w with gobjs := G }
  | .ub => .ub

theorem cInit_setG (G : List (Option GObj)) (w : CWorld) (o : CObj) (np nleg : Nat) (p f : Option Nat) (known : Bool) :
    cInit { w with gobjs := G } o np nleg p f known = cInit w o np nleg p f known := rfl

theorem cInitNew_setG (G : List (Option GObj)) (w : CWorld) (np nleg : Nat) (p f : Option Nat) (known : Bool) :
    cInitNew { w with gobjs := G } np nleg p f known = (cInitNew w np nleg p f known).setG G := by
  unfold cInitNew
  rw [cInit_setG]
  cases cInit w .fresh np nleg p f known <;> rfl

theorem cCtor_setG (G : List (Option GObj)) (w : CWorld) (np nleg : Nat) (known : Bool) :
    cCtor { w with gobjs := G } np nleg known = (cCtor w np nleg known).setG G :=
  cInitNew_setG G { w with next := w.next + 2 } np nleg _ _ known

theorem cClone_setG (G : List (Option GObj)) (w : CWorld) (o : CObj) :
    cClone { w with gobjs := G } o = (cClone w o).setG G := by
  unfold cClone
  cases o.dims with
  | none => rfl
  | some d => exact cInitNew_setG G w d.1 d.2 o.p o.f o.known

theorem gLoadLoop_setG (G : List (Option GObj)) (known : Bool) (ds : List (Nat × Nat)) :
    ∀ w : CWorld, gLoadLoop { w with gobjs := G } known ds = (gLoadLoop w known ds).setG G := by
  induction ds with
  | nil => intro w; rfl
  | cons d ds ih =>
    intro w
    obtain ⟨np, nleg⟩ := d
    unfold gLoadLoop
    rw [cCtor_setG]
    cases cCtor w np nleg known with
    | ok w' => exact ih w'
    | throws w' => rfl
    | ub => rfl

theorem gCloneLoop_setG (G : List (Option GObj)) (ks : List Nat) :
    ∀ w : CWorld, gCloneLoop { w with gobjs := G } ks = (gCloneLoop w ks).setG G := by
  induction ks with
  | nil => intro w; rfl
  | cons k ks ih =>
    intro w
    unfold gCloneLoop
    dsimp only
    cases w.objs[k]? with
    | none => rfl
    | some x =>
      cases x with
      | none => rfl
      | some o =>
        dsimp only
        rw [cClone_setG]
        cases cClone w o with
        | ok w' => exact ih w'
        | throws w' => rfl
        | ub => rfl

/-- Only the blocks of the GO+CODE objects matter. -/
theorem CInv.setG {w : CWorld} (h : CInv w) (G : List (Option GObj))
    (hG : ∀ b, (allOf GObj.excl G).count b = (allOf GObj.excl w.gobjs).count b) : CInv { w with gobjs := G } := by
  have hc : ∀ b, (CWorld.exclAll { w with gobjs := G }).count b = w.exclAll.count b := by
    intro b
    simp only [CWorld.exclAll, List.count_append, hG b]
  have hm : ∀ b, b ∈ CWorld.exclAll { w with gobjs := G } ↔ b ∈ w.exclAll := by
    intro b
    rw [← List.count_pos_iff, ← List.count_pos_iff, hc]
  exact ⟨fun b => by rw [hc]; exact h.cnt b, h.ltf, fun b hb => h.lte b ((hm b).mp hb),
    fun o ho b hb => ⟨(h.sh o ho b hb).1, (h.sh o ho b hb).2.1, fun hc' => (h.sh o ho b hb).2.2 ((hm b).mp hc')⟩, h.wf⟩

/-- Two new blocks for a GO+CODE object. -/
theorem CInv.newG {w : CWorld} (h : CInv w) (G : List (Option GObj))
    (hG : ∀ b, (allOf GObj.excl G).count b ≤ (allOf GObj.excl w.gobjs).count b + (List.count b [w.next, w.next + 1])) :
    CInv { w with next := w.next + 2, gobjs := G } := by
  have hc : ∀ b, (CWorld.exclAll { w with next := w.next + 2, gobjs := G }).count b ≤ w.exclAll.count b + List.count b [w.next, w.next + 1] := by
    intro b
    have := hG b
    simp only [CWorld.exclAll, List.count_append]
    omega
  have h2 : ∀ b, List.count b [w.next, w.next + 1] ≤ 1 := List.nodup_iff_count.mp (by simp)
  have h3 : ∀ b, 0 < List.count b [w.next, w.next + 1] → b = w.next ∨ b = w.next + 1 := by
    intro b hb
    have := List.count_pos_iff.mp hb
    simpa using this
  have hm : ∀ b, b ∈ CWorld.exclAll { w with next := w.next + 2, gobjs := G } → b ∈ w.exclAll ∨ b = w.next ∨ b = w.next + 1 := by
    intro b hb
    have h4 := List.count_pos_iff.mpr hb
    have h5 := hc b
    by_cases h0 : 0 < w.exclAll.count b
    · exact Or.inl (List.count_pos_iff.mp h0)
    · exact Or.inr (h3 b (by omega))
  refine ⟨?_, ?_, ?_, ?_, h.wf⟩
  · intro b
    have h4 := hc b
    have h5 := h.cnt b
    have h6 := h2 b
    dsimp only at *
    rcases Nat.lt_or_ge b w.next with hb | hb
    · have : List.count b [w.next, w.next + 1] = 0 := by
        rcases Nat.eq_zero_or_pos (List.count b [w.next, w.next + 1]) with h7 | h7
        · exact h7
        · have := h3 b h7; omega
      omega
    · have e1 := count_zero_of h.ltf hb
      have e2 := count_zero_of h.lte hb
      omega
  · intro b hb
    have := h.ltf b hb
    dsimp only
    omega
  · intro b hb
    dsimp only
    rcases hm b hb with h4 | h4
    · have := h.lte b h4; omega
    · omega
  · intro o ho b hb
    obtain ⟨h4, h5, h6⟩ := h.sh o ho b hb
    refine ⟨by dsimp only; omega, h5, fun hc' => ?_⟩
    rcases hm b hc' with h7 | h7
    · exact h6 h7
    · omega

theorem firstSlots_mem (n : Nat) (s : List (Option Nat)) (l : List Nat) (h : firstSlots n s = some l) : ∀ b ∈ l, b ∈ s.filterMap id := by
  induction n generalizing s l with
  | zero => simp only [firstSlots, Option.some.injEq] at h; subst h; simp
  | succ n ih =>
    cases s with
    | nil => cases h
    | cons x s =>
      cases x with
      | none => cases h
      | some a =>
        simp only [firstSlots] at h
        cases hf : firstSlots n s with
        | none => rw [hf] at h; cases h
        | some l' =>
          rw [hf] at h
          injection h with h
          subst h
          intro b hb
          rcases List.mem_cons.mp hb with rfl | hb
          · simp
          · have := ih s l' hf b hb
            simp only [List.filterMap_cons, id_eq]
            exact List.mem_cons_of_mem _ this

/-- One careful operation is defined and keeps everything in order. -/
theorem cStep_inv {w : CWorld} (h : CInv w) (op : COp) (hop : CarefulOp w op) : ∃ w', (cStep w op).world = some w' ∧ CInv w' := by
  cases op with
  | new =>
    refine ⟨_, rfl, ?_⟩
    have hc : ∀ b, (CWorld.exclAll { w with objs := w.objs ++ [some .fresh] }).count b = w.exclAll.count b := by
      intro b
      simp [CWorld.exclAll, allOf_append, optOf, CObj.excl, CObj.fresh]
    have hm : ∀ b, b ∈ CWorld.exclAll { w with objs := w.objs ++ [some .fresh] } ↔ b ∈ w.exclAll := by
      intro b
      rw [← List.count_pos_iff, ← List.count_pos_iff, hc]
    refine ⟨fun b => by rw [hc]; exact h.cnt b, h.ltf, fun b hb => h.lte b ((hm b).mp hb), ?_, ?_⟩
    · intro o ho b hb
      simp only [List.mem_append, List.mem_singleton, Option.some.injEq] at ho
      rcases ho with ho | rfl
      · exact ⟨(h.sh o ho b hb).1, (h.sh o ho b hb).2.1, fun hc' => (h.sh o ho b hb).2.2 ((hm b).mp hc')⟩
      · simp [CObj.shared, CObj.fresh] at hb
    · intro o ho
      simp only [List.mem_append, List.mem_singleton, Option.some.injEq] at ho
      rcases ho with ho | rfl
      · exact h.wf o ho
      · exact ⟨fun _ => rfl, ⟨[], rfl, rfl⟩, fun _ _ h => by (cases h), fun _ h => by (cases h)⟩
  | alloc => exact ⟨_, rfl, h.more 1⟩
  | init i np nleg p f known =>
    obtain ⟨⟨o, ho⟩, hd, hpf, hp, hf⟩ := hop
    have lp := (live_iff w p).mp hp.1
    have lf := (live_iff w f).mp hf.1
    refine ⟨_, ?_, h.replace i o ho np nleg p f known hd.1 hd.2 hpf ⟨lp.1, lp.2, hp.2⟩ ⟨lf.1, lf.2, hf.2⟩⟩
    simp only [cStep, withObj, ho, cInitAt, cInit_ok w o np nleg p f known hd.1 hd.2 hp.1 hf.1]
    rfl
  | load i np nleg known =>
    obtain ⟨⟨o, ho⟩, hd⟩ := hop
    have f1 := h.fresh2 w.next (Nat.le_refl _)
    have f2 := h.fresh2 (w.next + 1) (by omega)
    have e := cInit_ok { w with next := w.next + 2 } o np nleg w.next (w.next + 1) known hd.1 hd.2
      ((live_iff _ _).mpr ⟨by dsimp only; omega, f1.1⟩) ((live_iff _ _).mpr ⟨by dsimp only; omega, f2.1⟩)
    refine ⟨_, ?_, (h.more 2).replace i o ho np nleg w.next (w.next + 1) known hd.1 hd.2 (by omega)
      ⟨by dsimp only; omega, f1⟩ ⟨by dsimp only; omega, f2⟩⟩
    simp only [cStep, withObj, ho, cLoad, cInitAt, e]
    rfl
  | ctor np nleg known =>
    obtain ⟨e1, e2⟩ := cCtor_inv h np nleg known hop
    exact ⟨_, by simp only [cStep, e1]; rfl, e2⟩
  | clone i =>
    obtain ⟨o, ho, hd⟩ := hop
    obtain ⟨w', e1, e2, -⟩ := cClone_inv h i o ho hd
    exact ⟨w', by simp only [cStep, withObj, ho]; exact e1, e2⟩
  | destroy i =>
    obtain ⟨o, ho, hoth⟩ := hop
    have hwf := h.wf o (List.mem_of_getElem? ho)
    obtain ⟨l, hl1, hl2⟩ := hwf.blocks
    have hnd : ∀ b, o.shared.count b ≤ 1 := by
      apply List.nodup_iff_count.mp
      unfold CObj.shared
      cases hp : o.p with
      | none => cases o.f <;> simp
      | some p =>
        cases hf : o.f with
        | none => simp
        | some f =>
          have := hwf.pf p hp
          rw [hf] at this
          simp only [Option.toList_some, List.singleton_append, List.nodup_cons, List.mem_singleton, List.not_mem_nil, not_false_eq_true,
            List.nodup_nil, and_true]
          exact fun hc => this (by rw [hc])
    obtain ⟨w1, e1, e2, e3⟩ := h.release i o ho (o.f.toList ++ o.p.toList ++ o.leg.toList ++ o.accel.toList ++ (l ++ o.interp.toList))
      (some ⟨o.dims, none, none, none, none, none, (match o.interp with | some _ => [] | none => o.slots), o.known⟩)
      (by
        intro b
        have hs0 : (match o.interp with | some _ => [] | none => o.slots).filterMap id = [] := by
          cases hi : o.interp with
          | none => simp [hwf.none hi]
          | some _ => rfl
        have hy : (optOf CObj.excl (some ⟨o.dims, none, none, none, none, none, (match o.interp with | some _ => [] | none => o.slots), o.known⟩)).count b = 0 := by
          simp only [optOf, CObj.excl, hs0]
          simp
        have hsum : (o.f.toList ++ o.p.toList ++ o.leg.toList ++ o.accel.toList ++ (l ++ o.interp.toList)).count b =
            o.shared.count b + o.excl.count b := by
          simp only [CObj.shared, CObj.excl, List.count_append, hl2]
          omega
        rw [hy, hsum]
        by_cases hb : b ∈ o.shared
        · right
          have := (h.sh o (List.mem_of_getElem? ho) b hb).2.2
          have h0 : o.excl.count b = 0 := List.count_eq_zero.mpr fun hc => this (excl_in w i o ho b hc)
          have := hnd b
          exact ⟨hb, by omega, rfl⟩
        · left
          have : o.shared.count b = 0 := List.count_eq_zero.mpr hb
          omega)
      (by
        intro j o' hj ho' b hb hc
        have h1 := hoth j o' hj ho' b hb
        have h2 := (h.sh o' (List.mem_of_getElem? ho') b hb).2.2
        apply h2
        refine excl_in w i o ho b ?_
        simp only [CObj.shared, List.mem_append] at h1
        simp only [List.mem_append, hl2] at hc
        simp only [CObj.excl, List.mem_append]
        rcases hc with (((hc | hc) | hc) | hc) | (hc | hc)
        · exact absurd (Or.inl hc) h1
        · exact absurd (Or.inr hc) h1
        · exact Or.inl (Or.inl (Or.inl hc))
        · exact Or.inl (Or.inl (Or.inr hc))
        · exact Or.inl (Or.inr hc)
        · exact Or.inr hc)
      (by
        intro o' e
        injection e with e
        subst e
        refine ⟨⟨fun _ => ?_, ⟨[], rfl, ?_⟩, hwf.dims, fun _ hb => by (cases hb)⟩, rfl⟩
        · dsimp only
          cases hi : o.interp with
          | none => simp [hwf.none hi]
          | some _ => rfl
        · dsimp only
          cases hi : o.interp with
          | none => simp [hwf.none hi]
          | some _ => rfl)
    refine ⟨_, ?_, e2⟩
    simp only [cStep, withObj, ho, cDestroy, hl1, e1]
    rfl
  | delete i =>
    obtain ⟨o, ho⟩ := hop
    have hwf := h.wf o (List.mem_of_getElem? ho)
    obtain ⟨l, hl1, hl2⟩ := hwf.blocks
    have hle : ∀ b, (o.accel.toList ++ (l ++ o.interp.toList)).count b ≤ o.excl.count b := by
      intro b
      simp only [CObj.excl, List.count_append, hl2]
      omega
    obtain ⟨w1, e1, e2, e3⟩ := h.release i o ho (o.accel.toList ++ (l ++ o.interp.toList)) none
      (by intro b; left; have := hle b; simp only [optOf, List.count_nil]; omega)
      (by
        intro j o' hj ho' b hb hc
        refine (h.sh o' (List.mem_of_getElem? ho') b hb).2.2 (excl_in w i o ho b ?_)
        have := hle b
        exact List.count_pos_iff.mp (by have := List.count_pos_iff.mpr hc; omega))
      (by intro o' e; cases e)
    refine ⟨_, ?_, e2⟩
    simp only [cStep, withObj, ho, cDelete, hl1, e1]
    rfl
  | eval i =>
    obtain ⟨o, ho, hd, hp, hf, hleg, hac, hin⟩ := hop
    have hm := List.mem_of_getElem? ho
    have hwf := h.wf o hm
    obtain ⟨l, hl1, hl2⟩ := hwf.blocks
    have lv : ∀ b, b ∈ o.excl → w.live b = true := fun b hb =>
      (live_iff w b).mpr ⟨h.lte b (excl_in w i o ho b hb), h.notMem (excl_in w i o ho b hb)⟩
    have ls : ∀ b, b ∈ o.shared → w.live b = true := fun b hb =>
      (live_iff w b).mpr ⟨(h.sh o hm b hb).1, (h.sh o hm b hb).2.1⟩
    refine ⟨w, ?_, h⟩
    simp only [cStep, withObj, ho, cEval]
    cases hdd : o.dims with
    | none => exact absurd hdd hd
    | some d =>
      obtain ⟨np, nleg⟩ := d
      cases hii : o.interp with
      | none => exact absurd hii hin
      | some ib =>
        dsimp only
        simp only [CObj.interpBlocks, hii, hdd] at hl1
        cases hs : firstSlots nleg o.slots with
        | none => rw [hs] at hl1; cases hl1
        | some l' =>
          dsimp only
          have hmem := firstSlots_mem nleg o.slots l' hs
          obtain ⟨p, hp⟩ := Option.ne_none_iff_exists'.mp hp
          obtain ⟨f, hf⟩ := Option.ne_none_iff_exists'.mp hf
          obtain ⟨g, hleg⟩ := Option.ne_none_iff_exists'.mp hleg
          obtain ⟨a, hac⟩ := Option.ne_none_iff_exists'.mp hac
          rw [if_pos]
          · rfl
          · simp only [hp, hf, hleg, hac, CWorld.liveP, List.all_eq_true]
            exact ⟨ls p (by simp [CObj.shared, hp]), ls f (by simp [CObj.shared, hf]), lv g (by simp [CObj.excl, hleg]),
              lv a (by simp [CObj.excl, hac]), lv ib (by simp [CObj.excl, hii]),
              fun b hb => lv b (by simp only [CObj.excl, List.mem_append]; exact Or.inl (Or.inr (hmem b hb)))⟩
  | gnew =>
    refine ⟨_, rfl, h.setG _ ?_⟩
    intro b
    simp [allOf_append, optOf, GObj.excl]
  | gload i ds known =>
    obtain ⟨⟨g, hg⟩, hd⟩ := hop
    have hG : ∀ (E : List Nat) (b : Nat), (allOf GObj.excl (w.gobjs.set i (some ⟨some w.next, some (w.next + 1), E⟩))).count b ≤
        (allOf GObj.excl w.gobjs).count b + List.count b [w.next, w.next + 1] := by
      intro E b
      have := allOf_count_set GObj.excl b (some ⟨some w.next, some (w.next + 1), E⟩) (some g) w.gobjs i hg
      have e : optOf GObj.excl (some ⟨some w.next, some (w.next + 1), E⟩) = [w.next, w.next + 1] := rfl
      rw [e] at this
      omega
    obtain ⟨w1, e1, e2, e3⟩ := gLoadLoop_inv known ds _ (h.newG _ (hG [])) hd
    have e4 := gLoadLoop_setG (w.gobjs.set i (some ⟨some w.next, some (w.next + 1), []⟩)) known ds { w with next := w.next + 2 }
    rw [e1] at e4
    obtain ⟨w2, e5, e6, e7⟩ := gLoadLoop_inv known ds _ (h.more 2) hd
    rw [e5] at e4
    injection e4 with e4
    refine ⟨{ w2 with gobjs := w2.gobjs.set i (some ⟨some w.next, some (w.next + 1),
      (List.range (w2.objs.length - w.objs.length)).map (w.objs.length + ·)⟩) }, ?_, ?_⟩
    · simp only [cStep, withGObj, hg, gLoad, e5]
      rfl
    · rw [e7]
      have e8 := e2.setG (w.gobjs.set i (some ⟨some w.next, some (w.next + 1),
        (List.range (w2.objs.length - w.objs.length)).map (w.objs.length + ·)⟩)) (by
          intro b
          rw [e3]
          have h1 := allOf_count_set GObj.excl b (some ⟨some w.next, some (w.next + 1),
            (List.range (w2.objs.length - w.objs.length)).map (w.objs.length + ·)⟩) (some g) w.gobjs i hg
          have h2 := allOf_count_set GObj.excl b (some ⟨some w.next, some (w.next + 1), []⟩) (some g) w.gobjs i hg
          simp only [optOf, GObj.excl] at h1 h2 ⊢
          omega)
      rw [e4] at e8
      exact e8
  | gclone i =>
    obtain ⟨g, hg, hr, hc, hel⟩ := hop
    obtain ⟨r, hr⟩ := Option.ne_none_iff_exists'.mp hr
    obtain ⟨c, hc⟩ := Option.ne_none_iff_exists'.mp hc
    have lv : ∀ b, b ∈ g.excl → w.live b = true := by
      intro b hb
      have : b ∈ w.exclAll := by
        unfold CWorld.exclAll
        rw [List.mem_append, mem_allOf, mem_allOf]
        exact Or.inr ⟨g, List.mem_of_getElem? hg, hb⟩
      exact (live_iff w b).mpr ⟨h.lte b this, h.notMem this⟩
    have l1 := lv r (by simp [GObj.excl, hr])
    have l2 := lv c (by simp [GObj.excl, hc])
    have hG : ∀ (E : List Nat) (b : Nat), (allOf GObj.excl (w.gobjs ++ [some ⟨some (w.next + 1), some w.next, E⟩])).count b =
        (allOf GObj.excl w.gobjs).count b + List.count b [w.next, w.next + 1] := by
      intro E b
      rw [allOf_append, List.count_append]
      simp only [optOf, GObj.excl, Option.toList_some, List.singleton_append, List.count_cons, List.count_nil]
      omega
    obtain ⟨w1, e1, e2, e3⟩ := gCloneLoop_inv g.elems { w with next := w.next + 2, gobjs := w.gobjs ++ [some ⟨some (w.next + 1), some w.next, []⟩] }
      (h.newG _ (fun b => Nat.le_of_eq (hG [] b))) hel
    have e4 := gCloneLoop_setG (w.gobjs ++ [some ⟨some (w.next + 1), some w.next, []⟩]) g.elems { w with next := w.next + 2 }
    have e4 : gCloneLoop { w with next := w.next + 2, gobjs := w.gobjs ++ [some ⟨some (w.next + 1), some w.next, []⟩] } g.elems =
      (gCloneLoop { w with next := w.next + 2 } g.elems).setG (w.gobjs ++ [some ⟨some (w.next + 1), some w.next, []⟩]) := e4
    obtain ⟨w2, e5, e6, e7⟩ := gCloneLoop_inv g.elems { w with next := w.next + 2 } (h.more 2) hel
    have hst : cStep w (.gclone i) = match gCloneLoop { w with next := w.next + 2 } g.elems with
      | .ok w' => .ok { w' with gobjs := w'.gobjs ++
          [some ⟨some (w.next + 1), some w.next, (List.range (w'.objs.length - w.objs.length)).map (w.objs.length + ·)⟩] }
      | e => e := by
      simp only [cStep, withGObj, hg, gClone, hr, hc]
      rw [if_pos ⟨l1, l2⟩]
      rfl
    rw [hst]
    cases hl : gCloneLoop { w with next := w.next + 2 } g.elems with
    | ub => rw [hl] at e5; cases e5
    | throws w' =>
      rw [hl] at e5
      injection e5 with e5
      subst e5
      exact ⟨_, rfl, e6⟩
    | ok w' =>
      rw [hl] at e5
      injection e5 with e5
      subst e5
      rw [hl] at e4
      rw [e4] at e1
      injection e1 with e1
      refine ⟨_, rfl, ?_⟩
      rw [e7]
      have e8 := e2.setG (w.gobjs ++ [some ⟨some (w.next + 1), some w.next,
        (List.range (w'.objs.length - w.objs.length)).map (w.objs.length + ·)⟩]) (by
          intro b
          rw [e3]
          dsimp only
          rw [hG, hG])
      rw [← e1] at e8
      exact e8
  | gdelete i =>
    obtain ⟨g, hg, hc⟩ := hop
    obtain ⟨c, hc⟩ := Option.ne_none_iff_exists'.mp hc
    have hin : c ∈ w.exclAll := by
      unfold CWorld.exclAll
      rw [List.mem_append, mem_allOf, mem_allOf]
      exact Or.inr ⟨g, List.mem_of_getElem? hg, by simp [GObj.excl, hc]⟩
    have hl : w.live c = true := (live_iff w c).mpr ⟨h.lte c hin, h.notMem hin⟩
    refine ⟨{ w with freed := c :: w.freed, gobjs := w.gobjs.set i none }, ?_, ?_⟩
    · simp only [cStep, withGObj, hg, gDelete, hc, CWorld.freeAll, hl, if_true]
      rfl
    · have hcnt : ∀ b, (CWorld.exclAll { w with freed := c :: w.freed, gobjs := w.gobjs.set i none }).count b + g.excl.count b = w.exclAll.count b := by
        intro b
        have := allOf_count_set GObj.excl b none (some g) w.gobjs i hg
        simp only [optOf, List.count_nil] at this
        simp only [CWorld.exclAll, List.count_append]
        omega
      have hm : ∀ b, b ∈ CWorld.exclAll { w with freed := c :: w.freed, gobjs := w.gobjs.set i none } → b ∈ w.exclAll := by
        intro b hb
        have h1 := List.count_pos_iff.mpr hb
        have h2 := hcnt b
        exact List.count_pos_iff.mp (by omega)
      have hcg : ∀ b, (c :: w.freed).count b ≤ w.freed.count b + g.excl.count b := by
        intro b
        simp only [List.count_cons, GObj.excl, List.count_append, hc, Option.toList_some, List.count_nil]
        omega
      refine ⟨?_, ?_, fun b hb => h.lte b (hm b hb), ?_, h.wf⟩
      · intro b
        have h1 := hcnt b
        have h2 := hcg b
        have h3 := h.cnt b
        dsimp only at *
        omega
      · intro b hb
        rcases List.mem_cons.mp hb with rfl | hb
        · exact h.lte b hin
        · exact h.ltf b hb
      · intro o ho b hb
        obtain ⟨h1, h2, h3⟩ := h.sh o ho b hb
        refine ⟨h1, ?_, fun hc' => h3 (hm b hc')⟩
        intro hc'
        rcases List.mem_cons.mp hc' with rfl | hc'
        · exact h3 hin
        · exact h2 hc'

/-! ### What is released -/

/-- What the destructor releases. -/
def CObj.deleted (o : CObj) : List Nat := o.accel.toList ++ (o.slots.filterMap id ++ o.interp.toList)

theorem cDelete_eq {w : CWorld} (h : CInv w) (i : Nat) (o : CObj) (ho : w.objs[i]? = some (some o)) :
    cStep w (.delete i) = .ok { w with freed := o.deleted.reverse ++ w.freed, objs := w.objs.set i none } := by
  obtain ⟨l, hl1, hl2⟩ := (h.wf o (List.mem_of_getElem? ho)).blocks
  obtain ⟨w', h1, -⟩ := cStep_inv h (.delete i) ⟨o, ho⟩
  simp only [cStep, withObj, ho, cDelete, hl1, hl2] at h1 ⊢
  change (match w.freeAll o.deleted with
    | some w' => CRes.ok { w' with objs := w'.objs.set i none }
    | none => .ub) = _
  change (match w.freeAll o.deleted with
    | some w' => CRes.ok { w' with objs := w'.objs.set i none }
    | none => .ub).world = _ at h1
  cases hf : w.freeAll o.deleted with
  | none => rw [hf] at h1; cases h1
  | some w1 =>
    have := ((freeAllC_iff w _ w1).mp hf).2
    subst this
    rfl

theorem cDestroy_eq {w : CWorld} (h : CInv w) (i : Nat) (o : CObj) (ho : w.objs[i]? = some (some o)) :
    cStep w (.destroy i) = .ok { w with
      freed := (o.shared ++ o.excl).reverse ++ w.freed,
      objs := w.objs.set i (some ⟨o.dims, none, none, none, none, none, [], o.known⟩) } := by
  have hm := List.mem_of_getElem? ho
  have hwf := h.wf o hm
  obtain ⟨l, hl1, hl2⟩ := hwf.blocks
  have hD : o.f.toList ++ o.p.toList ++ o.leg.toList ++ o.accel.toList ++ (l ++ o.interp.toList) = o.shared ++ o.excl := by
    simp only [CObj.shared, CObj.excl, hl2, List.append_assoc]
  have hnd : (o.shared ++ o.excl).Nodup := by
    rw [List.nodup_append]
    refine ⟨?_, ?_, ?_⟩
    · unfold CObj.shared
      cases hp : o.p with
      | none => cases o.f <;> simp
      | some p =>
        cases hf : o.f with
        | none => simp
        | some f =>
          have := hwf.pf p hp
          rw [hf] at this
          simp only [Option.toList_some, List.singleton_append, List.nodup_cons, List.mem_singleton, List.not_mem_nil, not_false_eq_true,
            List.nodup_nil, and_true]
          exact fun hc => this (by rw [hc])
    · rw [List.nodup_iff_count]
      intro b
      have h1 := excl_le w i o ho b
      have h2 := h.cnt b
      simp only [CWorld.exclAll, List.count_append] at h2
      omega
    · rintro a ha b hb rfl
      exact (h.sh o hm a ha).2.2 (excl_in w i o ho a hb)
  have hlv : ∀ b ∈ o.shared ++ o.excl, w.live b = true := by
    intro b hb
    rw [live_iff]
    rcases List.mem_append.mp hb with hb | hb
    · exact ⟨(h.sh o hm b hb).1, (h.sh o hm b hb).2.1⟩
    · exact ⟨h.lte b (excl_in w i o ho b hb), h.notMem (excl_in w i o ho b hb)⟩
  have hf := (freeAllC_iff w (o.shared ++ o.excl) _).mpr ⟨⟨hnd, hlv⟩, rfl⟩
  simp only [cStep, withObj, ho, cDestroy, hl1, hD, hf]
  cases hi : o.interp with
  | none => simp only [hwf.none hi]
  | some _ => rfl

theorem cRun_inv (ops : List COp) : ∀ w, CInv w → Careful w ops → ∃ w', cRun w ops = some w' ∧ CInv w' := by
  induction ops with
  | nil => intro w h _; exact ⟨w, rfl, h⟩
  | cons op ops ih =>
    intro w h hc
    obtain ⟨h1, h2⟩ := hc
    obtain ⟨w1, e1, e2⟩ := cStep_inv h op h1
    obtain ⟨w', e3, e4⟩ := ih w1 e2 (h2 w1 e1)
    refine ⟨w', ?_, e4⟩
    unfold cRun
    cases hs : cStep w op with
    | ub => rw [hs] at e1; cases e1
    | ok w2 => rw [hs] at e1; injection e1 with e1; subst e1; exact e3
    | throws w2 => rw [hs] at e1; injection e1 with e1; subst e1; exact e3

/-- Everything an object holds. -/
def CObj.holds (o : CObj) : List Nat := o.shared ++ o.excl

/-- Tidy use: no clones, and only objects that hold nothing are loaded again or destroyed. -/
def TidyOp (w : CWorld) (op : COp) : Prop :=
  CarefulOp w op ∧
  match op with
  | .new => True
  | .ctor _ _ _ => True
  | .eval _ => True
  | .destroy _ => True
  | .load i _ _ _ => ∀ o, w.objs[i]? = some (some o) → o.holds = []
  | .delete i => ∀ o, w.objs[i]? = some (some o) → o.holds = []
  | _ => False

def Tidy : CWorld → List COp → Prop
  | _, [] => True
  | w, op :: ops => TidyOp w op ∧ ∀ w', (cStep w op).world = some w' → Tidy w' ops

/-- Every block was released or is held by an object that is still there. -/
def Covered (w : CWorld) : Prop := ∀ b, b < w.next → b ∈ w.freed ∨ ∃ o, some o ∈ w.objs ∧ b ∈ o.holds

theorem madeObj_holds (n np nleg p f : Nat) (known : Bool) (b : Nat) :
    b ∈ (madeObj n np nleg p f known).holds ↔ b = p ∨ b = f ∨ (n ≤ b ∧ b < n + 3 + nleg) := by
  unfold CObj.holds
  rw [List.mem_append, madeObj_excl]
  simp only [CObj.shared, madeObj, Option.toList_some, List.singleton_append, List.mem_cons, List.not_mem_nil, or_false, List.mem_append,
    mem_newIdx]
  omega

theorem mem_set_other {l : List (Option CObj)} {i : Nat} {y z : Option CObj} {o : CObj} (hi : l[i]? = some z) (h : some o ∈ l)
    (hz : z ≠ some o) : some o ∈ l.set i y := by
  obtain ⟨j, hj⟩ := List.mem_iff_getElem?.mp h
  apply List.mem_iff_getElem?.mpr
  refine ⟨j, ?_⟩
  rw [List.getElem?_set]
  by_cases hij : i = j
  · subst hij
    rw [hi] at hj
    injection hj with hj
    exact absurd hj hz
  · rw [if_neg hij]
    exact hj

theorem tidy_step {w : CWorld} (h : CInv w) (hc : Covered w) (op : COp) (hop : TidyOp w op) (w' : CWorld)
    (hw : (cStep w op).world = some w') : Covered w' := by
  obtain ⟨h1, h2⟩ := hop
  cases op with
  | new =>
    simp only [cStep, CRes.world, Option.some.injEq] at hw
    subst hw
    intro b hb
    rcases hc b hb with hb | ⟨o, ho, hb⟩
    · exact Or.inl hb
    · exact Or.inr ⟨o, List.mem_append_left _ ho, hb⟩
  | ctor np nleg known =>
    simp only [cStep, (cCtor_inv h np nleg known h1).1, CRes.world, Option.some.injEq] at hw
    subst hw
    intro b hb
    dsimp only at hb ⊢
    rcases Nat.lt_or_ge b w.next with hl | hl
    · rcases hc b hl with hb | ⟨o, ho, hb⟩
      · exact Or.inl hb
      · exact Or.inr ⟨o, List.mem_append_left _ ho, hb⟩
    · refine Or.inr ⟨_, List.mem_append_right _ (List.mem_singleton.mpr rfl), ?_⟩
      rw [madeObj_holds]
      omega
  | eval i =>
    obtain ⟨o, ho, -⟩ := h1
    have : w' = w := by
      simp only [cStep, withObj, ho, cEval] at hw
      repeat' split at hw
      all_goals simp only [CRes.world, Option.some.injEq, reduceCtorEq] at hw
      exact hw.symm
    rw [this]
    exact hc
  | destroy i =>
    obtain ⟨o, ho, -⟩ := h1
    rw [cDestroy_eq h i o ho] at hw
    simp only [CRes.world, Option.some.injEq] at hw
    subst hw
    intro b hb
    rcases hc b hb with hb2 | ⟨o', ho', hb2⟩
    · exact Or.inl (List.mem_append_right _ hb2)
    · by_cases he : o' = o
      · subst he
        exact Or.inl (List.mem_append_left _ (List.mem_reverse.mpr hb2))
      · exact Or.inr ⟨o', mem_set_other ho ho' (fun hc' => he (Option.some.inj hc').symm), hb2⟩
  | load i np nleg known =>
    obtain ⟨⟨o, ho⟩, hd⟩ := h1
    have hno := h2 o ho
    have f1 := h.fresh2 w.next (Nat.le_refl _)
    have f2 := h.fresh2 (w.next + 1) (by omega)
    have e := cInit_ok { w with next := w.next + 2 } o np nleg w.next (w.next + 1) known hd.1 hd.2
      ((live_iff _ _).mpr ⟨by dsimp only; omega, f1.1⟩) ((live_iff _ _).mpr ⟨by dsimp only; omega, f2.1⟩)
    simp only [cStep, withObj, ho, cLoad, cInitAt, e, CRes.world, Option.some.injEq] at hw
    subst hw
    intro b hb
    dsimp only at hb ⊢
    rcases Nat.lt_or_ge b w.next with hl | hl
    · rcases hc b hl with hb2 | ⟨o', ho', hb2⟩
      · exact Or.inl hb2
      · have he : o' ≠ o := by
          rintro rfl
          rw [hno] at hb2
          cases hb2
        exact Or.inr ⟨o', mem_set_other ho ho' (fun hc' => he (Option.some.inj hc').symm), hb2⟩
    · refine Or.inr ⟨madeObj (w.next + 2) np nleg w.next (w.next + 1) known, ?_, ?_⟩
      · apply List.mem_iff_getElem?.mpr
        refine ⟨i, ?_⟩
        rw [List.getElem?_set, if_pos rfl, if_pos (List.getElem?_eq_some_iff.mp ho).1]
        rfl
      · rw [madeObj_holds]
        omega
  | delete i =>
    obtain ⟨o, ho⟩ := h1
    have hno := h2 o ho
    rw [cDelete_eq h i o ho] at hw
    simp only [CRes.world, Option.some.injEq] at hw
    subst hw
    intro b hb
    rcases hc b hb with hb2 | ⟨o', ho', hb2⟩
    · exact Or.inl (List.mem_append_right _ hb2)
    · have he : o' ≠ o := by
        rintro rfl
        rw [hno] at hb2
        cases hb2
      exact Or.inr ⟨o', mem_set_other ho ho' (fun hc' => he (Option.some.inj hc').symm), hb2⟩
  | alloc => exact h2.elim
  | init => exact h2.elim
  | clone => exact h2.elim
  | gnew => exact h2.elim
  | gload => exact h2.elim
  | gclone => exact h2.elim
  | gdelete => exact h2.elim

theorem tidy_run (ops : List COp) : ∀ w, CInv w → Covered w → Tidy w ops → ∃ w', cRun w ops = some w' ∧ CInv w' ∧ Covered w' := by
  induction ops with
  | nil => intro w h hc _; exact ⟨w, rfl, h, hc⟩
  | cons op ops ih =>
    intro w h hc ht
    obtain ⟨h1, h2⟩ := ht
    obtain ⟨w1, e1, e2⟩ := cStep_inv h op h1.1
    obtain ⟨w', e3, e4⟩ := ih w1 e2 (tidy_step h hc op h1 w1 e1) (h2 w1 e1)
    refine ⟨w', ?_, e4⟩
    unfold cRun
    cases hs : cStep w op with
    | ub => rw [hs] at e1; cases e1
    | ok w2 => rw [hs] at e1; injection e1 with e1; subst e1; exact e3
    | throws w2 => rw [hs] at e1; injection e1 with e1; subst e1; exact e3

/-! ### What the destructor leaves behind -/

theorem allOf_length_set {α : Type} (g : α → List Nat) (y : Option α) (x : Option α) :
    ∀ (l : List (Option α)) (i : Nat), l[i]? = some x →
      (allOf g (l.set i y)).length + (optOf g x).length = (allOf g l).length + (optOf g y).length := by
  intro l
  induction l with
  | nil => intro i h; simp at h
  | cons z l ih =>
    intro i h
    cases i with
    | zero =>
      simp only [List.getElem?_cons_zero, Option.some.injEq] at h
      subst h
      cases y <;> cases z <;> simp [allOf, optOf] <;> omega
    | succ i =>
      simp only [List.getElem?_cons_succ] at h
      have := ih i h
      cases z <;> simp [allOf] <;> omega

/-- The operations a program without `Destroy` uses. -/
def COp.plain : COp → Bool
  | .new => true
  | .ctor _ _ _ => true
  | .clone _ => true
  | .eval _ => true
  | .delete _ => true
  | _ => false

/-- Three blocks for each object loaded and one for each clone. -/
def lostBlocks : List COp → Nat
  | [] => 0
  | .ctor _ _ _ :: ops => 3 + lostBlocks ops
  | .clone _ :: ops => 1 + lostBlocks ops
  | _ :: ops => lostBlocks ops

theorem madeObj_deleted (n np nleg p f : Nat) (known : Bool) : (madeObj n np nleg p f known).deleted.length = nleg + 2 := by
  simp only [CObj.deleted, madeObj, filterMap_somes, Option.toList_some, List.length_append, newIdx_length, List.length_singleton]
  omega

theorem plain_step {w : CWorld} (h : CInv w) (op : COp) (hp : op.plain = true) (hop : CarefulOp w op) (w' : CWorld)
    (hw : (cStep w op).world = some w') :
    w'.next + w.freed.length + (allOf CObj.deleted w.objs).length =
      w.next + w'.freed.length + (allOf CObj.deleted w'.objs).length + lostBlocks [op] := by
  cases op with
  | new =>
    simp only [cStep, CRes.world, Option.some.injEq] at hw
    subst hw
    simp only [allOf_append, optOf, lostBlocks, List.length_append]
    have : (CObj.deleted CObj.fresh).length = 0 := rfl
    omega
  | ctor np nleg known =>
    simp only [cStep, (cCtor_inv h np nleg known hop).1, CRes.world, Option.some.injEq] at hw
    subst hw
    simp only [allOf_append, optOf, lostBlocks, List.length_append, madeObj_deleted]
    omega
  | eval i =>
    obtain ⟨o, ho, -⟩ := hop
    have : w' = w := by
      simp only [cStep, withObj, ho, cEval] at hw
      repeat' split at hw
      all_goals simp only [CRes.world, Option.some.injEq, reduceCtorEq] at hw
      exact hw.symm
    rw [this]
    simp only [lostBlocks]
    omega
  | delete i =>
    obtain ⟨o, ho⟩ := hop
    rw [cDelete_eq h i o ho] at hw
    simp only [CRes.world, Option.some.injEq] at hw
    subst hw
    have := allOf_length_set CObj.deleted none (some o) w.objs i ho
    simp only [optOf, List.length_nil] at this
    simp only [lostBlocks, List.length_append, List.length_reverse]
    omega
  | clone i =>
    obtain ⟨o, ho, hd⟩ := hop
    have hm := List.mem_of_getElem? ho
    have hwf := h.wf o hm
    simp only [cStep, withObj, ho, cClone] at hw
    cases hdd : o.dims with
    | none => exact absurd hdd hd
    | some d =>
      obtain ⟨np, nleg⟩ := d
      rw [hdd] at hw
      dsimp only at hw
      obtain ⟨h1, h2⟩ := hwf.dims np nleg hdd
      unfold cInitNew at hw
      cases hp : o.p with
      | none =>
        rw [hp] at hw
        simp only [cInit, CRes.world, Option.some.injEq] at hw
        subst hw
        simp only [lostBlocks]
        omega
      | some p =>
        cases hf : o.f with
        | none =>
          rw [hp, hf] at hw
          simp only [cInit, CRes.world, Option.some.injEq] at hw
          subst hw
          simp only [lostBlocks]
          omega
        | some f =>
          have sp := h.sh o hm p (by simp [CObj.shared, hp])
          have sf := h.sh o hm f (by simp [CObj.shared, hf])
          rw [hp, hf, cInit_ok w .fresh np nleg p f o.known h1 h2 ((live_iff _ _).mpr ⟨sp.1, sp.2.1⟩) ((live_iff _ _).mpr ⟨sf.1, sf.2.1⟩)] at hw
          simp only [CRes.world, Option.some.injEq] at hw
          subst hw
          have := madeObj_deleted w.next np nleg p f o.known
          simp only [madeObj] at this
          simp only [allOf_append, optOf, lostBlocks, List.length_append, this]
          omega
  | alloc => cases hp
  | init => cases hp
  | load => cases hp
  | destroy => cases hp
  | gnew => cases hp
  | gload => cases hp
  | gclone => cases hp
  | gdelete => cases hp

theorem lostBlocks_cons (op : COp) (ops : List COp) : lostBlocks (op :: ops) = lostBlocks [op] + lostBlocks ops := by
  cases op <;> simp [lostBlocks]

theorem plain_run (ops : List COp) : ∀ w, CInv w → Careful w ops → (∀ op ∈ ops, op.plain = true) →
    ∃ w', cRun w ops = some w' ∧
      w'.next + w.freed.length + (allOf CObj.deleted w.objs).length =
        w.next + w'.freed.length + (allOf CObj.deleted w'.objs).length + lostBlocks ops := by
  induction ops with
  | nil => intro w h _ _; exact ⟨w, rfl, by simp only [lostBlocks]; omega⟩
  | cons op ops ih =>
    intro w h ht hp
    obtain ⟨h1, h2⟩ := ht
    obtain ⟨w1, e1, e2⟩ := cStep_inv h op h1
    have e5 := plain_step h op (hp op List.mem_cons_self) h1 w1 e1
    obtain ⟨w', e3, e4⟩ := ih w1 e2 (h2 w1 e1) (fun op' h' => hp op' (List.mem_cons_of_mem _ h'))
    refine ⟨w', ?_, by rw [lostBlocks_cons]; omega⟩
    unfold cRun
    cases hs : cStep w op with
    | ub => rw [hs] at e1; cases e1
    | ok w2 => rw [hs] at e1; injection e1 with e1; subst e1; exact e3
    | throws w2 => rw [hs] at e1; injection e1 with e1; subst e1; exact e3

theorem allOf_none {α : Type} (g : α → List Nat) (l : List (Option α)) (h : ∀ x ∈ l, x = none) : allOf g l = [] := by
  induction l with
  | nil => rfl
  | cons x l ih =>
    have := h x List.mem_cons_self
    subst this
    exact ih fun y hy => h y (List.mem_cons_of_mem _ hy)

theorem gLoadLoop_next (known : Bool) (ds : List (Nat × Nat)) :
    ∀ w, CInv w → (∀ d ∈ ds, FineDims d.1 d.2 known) → ∃ w', gLoadLoop w known ds = .ok w' ∧ w'.freed = w.freed ∧ w'.gobjs = w.gobjs ∧
      w'.next = w.next + (ds.map fun d => d.2 + 5).sum ∧ w'.objs.length = w.objs.length + ds.length := by
  induction ds with
  | nil => intro w h _; exact ⟨w, rfl, rfl, rfl, by simp, by simp⟩
  | cons d ds ih =>
    intro w h hd
    obtain ⟨np, nleg⟩ := d
    obtain ⟨e1, e2⟩ := cCtor_inv h np nleg known (hd (np, nleg) List.mem_cons_self)
    obtain ⟨w', e3, e4, e5, e6, e7⟩ := ih _ e2 (fun d h' => hd d (List.mem_cons_of_mem _ h'))
    refine ⟨w', ?_, e4, e5, ?_, ?_⟩
    · unfold gLoadLoop
      rw [e1]
      exact e3
    · rw [e6]
      simp only [List.map_cons, List.sum_cons]
      omega
    · rw [e7]
      simp only [List.length_append, List.length_cons, List.length_nil]
      omega

end Softlib.Dist.CodeMem

namespace Softlib

open Softlib.Dist.CodeMem

/-- Careful use is safe: whatever sequence of operations a program performs, as long as it destroys only
objects that are there, calls `Destroy` only on an object whose arrays no other object uses, evaluates
and clones only initialised objects and passes sizes and types that `Initialize` takes, no memory is
released twice or used after release, and everything an object points to is allocated. -/
theorem C104_careful_partial (ops : List COp) (h : Careful CWorld.empty ops) :
    ∃ w, cRun CWorld.empty ops = some w ∧ w.freed.Nodup ∧ (∀ b ∈ w.freed, b < w.next) ∧
      ∀ o, some o ∈ w.objs → ∀ b ∈ o.f.toList ++ o.p.toList ++ o.leg.toList ++ o.accel.toList ++ o.slots.filterMap id ++ o.interp.toList,
        b < w.next ∧ b ∉ w.freed := by
  obtain ⟨w, e, h1⟩ := cRun_inv ops _ CInv.empty h
  refine ⟨w, e, ?_, h1.ltf, ?_⟩
  · rw [List.nodup_iff_count]
    intro b
    have := h1.cnt b
    omega
  · intro o ho b hb
    have hb : b ∈ o.shared ∨ b ∈ o.excl := by
      simp only [List.mem_append] at hb
      simp only [CObj.shared, CObj.excl, List.mem_append]
      rcases hb with ((((hb | hb) | hb) | hb) | hb) | hb
      · exact Or.inl (Or.inl hb)
      · exact Or.inl (Or.inr hb)
      · exact Or.inr (Or.inl (Or.inl (Or.inl hb)))
      · exact Or.inr (Or.inl (Or.inl (Or.inr hb)))
      · exact Or.inr (Or.inl (Or.inr hb))
      · exact Or.inr (Or.inr hb)
    rcases hb with hb | hb
    · exact ⟨(h1.sh o ho b hb).1, (h1.sh o ho b hb).2.1⟩
    · obtain ⟨i, hi⟩ := List.mem_iff_getElem?.mp ho
      exact ⟨h1.lte b (excl_in w i o hi b hb), h1.notMem (excl_in w i o hi b hb)⟩

/-- If a program makes no clones and calls `Destroy` on every object before it is destroyed or loaded
again, everything is released: each block that was allocated is released exactly once when all objects
are gone. -/
theorem C104_tidy_partial (ops : List COp) (h : Tidy CWorld.empty ops) :
    ∃ w, cRun CWorld.empty ops = some w ∧ ((∀ x ∈ w.objs, x = none) → ∀ b, b < w.next → w.freed.count b = 1) := by
  obtain ⟨w, e, h1, h2⟩ := tidy_run ops _ CInv.empty (fun b hb => absurd hb (Nat.not_lt_zero b)) h
  refine ⟨w, e, fun hn b hb => ?_⟩
  rcases h2 b hb with h3 | ⟨o, ho, -⟩
  · have h4 := List.count_pos_iff.mpr h3
    have h5 := h1.cnt b
    omega
  · cases hn _ ho

/-- Without `Destroy`, exactly three blocks are lost for every distribution loaded (the momenta, the
function and the Legendre polynomials) and one for every clone, even when all objects were destroyed. -/
theorem C104_refuted_leak (ops : List COp) (h : Careful CWorld.empty ops) (hp : ∀ op ∈ ops, op.plain = true) :
    ∃ w, cRun CWorld.empty ops = some w ∧ ((∀ x ∈ w.objs, x = none) → w.next = w.freed.length + lostBlocks ops) := by
  obtain ⟨w, e, h1⟩ := plain_run ops _ CInv.empty h hp
  refine ⟨w, e, fun hn => ?_⟩
  rw [allOf_none _ _ hn] at h1
  simp only [CWorld.empty, allOf, List.length_nil] at h1
  omega

/-- Destroying an object releases the accelerator, the interpolators and the array of them, nothing
else; it is always defined after careful use. -/
theorem C104_delete (ops : List COp) (h : Careful CWorld.empty ops) (w : CWorld) (hw : cRun CWorld.empty ops = some w)
    (i : Nat) (o : CObj) (ho : w.objs[i]? = some (some o)) :
    cStep w (.delete i) = .ok { w with
      freed := (o.accel.toList ++ (o.slots.filterMap id ++ o.interp.toList)).reverse ++ w.freed, objs := w.objs.set i none } := by
  obtain ⟨w', e, h1⟩ := cRun_inv ops _ CInv.empty h
  rw [hw] at e
  injection e with e
  subst e
  exact cDelete_eq h1 i o ho

/-- `Destroy` releases everything the object points to and leaves it empty. -/
theorem C104_destroy (ops : List COp) (h : Careful CWorld.empty ops) (w : CWorld) (hw : cRun CWorld.empty ops = some w)
    (i : Nat) (o : CObj) (ho : w.objs[i]? = some (some o)) :
    cStep w (.destroy i) = .ok { w with
      freed := (o.f.toList ++ o.p.toList ++ (o.leg.toList ++ o.accel.toList ++ o.slots.filterMap id ++ o.interp.toList)).reverse ++ w.freed,
      objs := w.objs.set i (some ⟨o.dims, none, none, none, none, none, [], o.known⟩) } := by
  obtain ⟨w', e, h1⟩ := cRun_inv ops _ CInv.empty h
  rw [hw] at e
  injection e with e
  subst e
  exact cDestroy_eq h1 i o ho

/-- `Destroy` on one of two objects with the same array leaves the other unusable: evaluating it and
`Destroy` on it are undefined. -/
theorem C104_refuted_clone (ops : List COp) (h : Careful CWorld.empty ops) (w : CWorld) (hw : cRun CWorld.empty ops = some w)
    (i j : Nat) (hij : i ≠ j) (o o' : CObj) (ho : w.objs[i]? = some (some o)) (ho' : w.objs[j]? = some (some o'))
    (b : Nat) (h1 : o.f = some b) (h2 : o'.f = some b) :
    cRun w [.destroy i, .eval j] = none ∧ cRun w [.destroy i, .destroy j] = none := by
  obtain ⟨w', e, hi⟩ := cRun_inv ops _ CInv.empty h
  rw [hw] at e
  injection e with e
  subst e
  have hd := cDestroy_eq hi i o ho
  have hb : b ∈ (o.shared ++ o.excl).reverse ++ w.freed := by
    refine List.mem_append_left _ (List.mem_reverse.mpr (List.mem_append_left _ ?_))
    simp [CObj.shared, h1]
  generalize hF : (o.shared ++ o.excl).reverse ++ w.freed = F at hd hb
  generalize hX : (some ⟨o.dims, none, none, none, none, none, [], o.known⟩ : Option CObj) = X at hd
  have hj : (w.objs.set i X)[j]? = some (some o') := by
    rw [List.getElem?_set, if_neg hij]
    exact ho'
  have hl : CWorld.live { w with freed := F, objs := w.objs.set i X } b = false := by
    cases hc : CWorld.live { w with freed := F, objs := w.objs.set i X } b with
    | false => rfl
    | true => exact absurd hb ((live_iff _ b).mp hc).2
  constructor
  · have : cStep { w with freed := F, objs := w.objs.set i X } (.eval j) = .ub := by
      simp only [cStep, withObj, hj, cEval, h2, CWorld.liveP, hl]
      cases o'.dims with
      | none => rfl
      | some d =>
        obtain ⟨np, nleg⟩ := d
        cases o'.interp with
        | none => rfl
        | some ib =>
          dsimp only
          cases firstSlots nleg o'.slots with
          | none => rfl
          | some l => simp
    simp only [cRun, hd, this]
  · have : cStep { w with freed := F, objs := w.objs.set i X } (.destroy j) = .ub := by
      simp only [cStep, withObj, hj, cDestroy, h2, Option.toList_some]
      cases o'.interpBlocks with
      | none => rfl
      | some l => simp only [List.singleton_append, List.cons_append, CWorld.freeAll, hl, Bool.false_eq_true, if_false]
    simp only [cRun, hd, this]

/-- That happens with every clone. -/
theorem C104_refuted_clone_all (np nleg : Nat) (hn : nleg ≤ np) :
    cRun CWorld.empty [.ctor np nleg true, .clone 0, .destroy 1, .eval 0] = none ∧
    cRun CWorld.empty [.ctor np nleg true, .clone 0, .destroy 1, .destroy 0] = none := by
  have hfd : FineDims np nleg true := ⟨hn, Or.inl rfl⟩
  obtain ⟨e1, e2⟩ := cCtor_inv CInv.empty np nleg true hfd
  have hc : Careful CWorld.empty [.ctor np nleg true, .clone 0] := by
    refine ⟨hfd, fun w hw => ?_⟩
    simp only [cStep, e1, CRes.world, Option.some.injEq] at hw
    subst hw
    exact ⟨⟨_, rfl, by simp [madeObj]⟩, fun _ _ => trivial⟩
  obtain ⟨w, hw, -⟩ := cRun_inv _ _ CInv.empty hc
  have hw0 := hw
  simp only [cRun, cStep] at hw
  rw [e1] at hw
  simp only [withObj, CWorld.empty, List.nil_append, List.getElem?_cons_zero, cClone, madeObj, cInitNew] at hw
  rw [cInit_ok _ _ np nleg 0 1 true hn (Or.inl rfl) ((live_iff _ _).mpr ⟨by dsimp only; omega, by simp⟩)
    ((live_iff _ _).mpr ⟨by dsimp only; omega, by simp⟩)] at hw
  simp only [Option.some.injEq] at hw
  have h3 := C104_refuted_clone _ hc w hw0 1 0 (by omega) _ _ (by rw [← hw]; rfl) (by rw [← hw]; rfl) 1 rfl rfl
  have happ : ∀ (l : List COp), cRun CWorld.empty (.ctor np nleg true :: .clone 0 :: l) = cRun w l := by
    intro l
    have : ∀ (a b : COp) (u : CWorld), cRun u [a, b] = some w → cRun u (a :: b :: l) = cRun w l := by
      intro a b u hu
      simp only [cRun] at hu ⊢
      cases ha : cStep u a with
      | ub => rw [ha] at hu; cases hu
      | ok u1 =>
        rw [ha] at hu
        dsimp only at hu ⊢
        cases hb : cStep u1 b with
        | ub => rw [hb] at hu; cases hu
        | ok u2 => rw [hb] at hu; injection hu with hu; rw [hu]
        | throws u2 => rw [hb] at hu; injection hu with hu; rw [hu]
      | throws u1 =>
        rw [ha] at hu
        dsimp only at hu ⊢
        cases hb : cStep u1 b with
        | ub => rw [hb] at hu; cases hu
        | ok u2 => rw [hb] at hu; injection hu with hu; rw [hu]
        | throws u2 => rw [hb] at hu; injection hu with hu; rw [hu]
    exact this _ _ _ hw0
  rw [happ, happ]
  exact h3

/-- Loading with an interpolation type that does not exist throws, and then the object cannot be
destroyed: entries of `interp` that were never written would be released. -/
theorem C104_refuted_unknown (np nleg : Nat) (hn : 0 < nleg) :
    (∃ w, cRun CWorld.empty [.new, .load 0 np nleg false] = some w) ∧
    cRun CWorld.empty [.new, .load 0 np nleg false, .delete 0] = none ∧
    cRun CWorld.empty [.new, .load 0 np nleg false, .destroy 0] = none := by
  obtain ⟨k, rfl⟩ : ∃ k, nleg = k + 1 := ⟨nleg - 1, by omega⟩
  have hs : firstSlots (k + 1) (List.replicate np none) = none := by
    cases np <;> rfl
  have h1 : ¬k + 1 = 0 := by omega
  refine ⟨⟨_, by simp only [cRun, cStep, withObj, CWorld.empty, List.nil_append, List.getElem?_cons_zero, cLoad, cInitAt, cInit, h1,
    if_false, if_true]; rfl⟩, ?_, ?_⟩
  · simp [cRun, cStep, withObj, CWorld.empty, cLoad, cInitAt, cInit, cDelete, CObj.interpBlocks, hs]
  · simp [cRun, cStep, withObj, CWorld.empty, cLoad, cInitAt, cInit, cDestroy, CObj.interpBlocks, hs]

/-- A GO+CODE distribution keeps everything but the array of pointers: when one with any number of radii
was loaded and destroyed, one block has been released of the two and five more for each radius, besides
one for each Legendre mode. -/
theorem C104_refuted_gocode (ds : List (Nat × Nat)) (known : Bool) (h : ∀ d ∈ ds, d.2 ≤ d.1 ∧ (known = true ∨ d.2 = 0)) :
    ∃ w, cRun CWorld.empty [.gnew, .gload 0 ds known, .gdelete 0] = some w ∧ w.gobjs = [none] ∧ w.freed.length = 1 ∧
      w.next = 2 + (ds.map fun d => d.2 + 5).sum := by
  have hg := cStep_inv CInv.empty .gnew trivial
  obtain ⟨w0, e0, i0⟩ := hg
  simp only [cStep, CRes.world, Option.some.injEq] at e0
  subst e0
  obtain ⟨w, e1, e2, e3, e4, e5⟩ := gLoadLoop_next known ds _ (i0.more 2) h
  simp only [CWorld.empty, List.nil_append] at e1 e2 e3 e4 e5
  refine ⟨{ w with freed := 1 :: w.freed, gobjs := [none] }, ?_, rfl, ?_, ?_⟩
  · simp only [cRun, cStep, withGObj, CWorld.empty, List.nil_append, List.getElem?_cons_zero, gLoad, e1, e3, List.set_cons_zero, gDelete,
      CWorld.freeAll]
    rw [if_pos]
    · rfl
    · rw [live_iff]
      dsimp only
      rw [e2, e4]
      exact ⟨by omega, by simp⟩
  · simp [e2]
  · simp [e4]

/-- A GO+CODE distribution that was never loaded cannot be destroyed. -/
theorem C104_refuted_gocode_new : cRun CWorld.empty [.gnew, .gdelete 0] = none := by decide

/-- Loading twice loses what was loaded first, `Destroy` or not. -/
theorem C104_refuted_reload : ∃ w, cRun CWorld.empty [.new, .load 0 1 1 true, .load 0 1 1 true, .destroy 0, .delete 0] = some w ∧
    w.objs = [none] ∧ w.next = 12 ∧ w.freed.length = 6 := ⟨_, rfl, rfl, rfl, rfl⟩

example : Careful CWorld.empty [.ctor 2 1 true, .clone 0, .eval 1, .delete 0, .eval 1, .delete 1] := by
  refine ⟨⟨by decide, Or.inl rfl⟩, fun w hw => ?_⟩
  injection hw with hw; subst hw
  refine ⟨⟨_, rfl, by decide⟩, fun w hw => ?_⟩
  injection hw with hw; subst hw
  refine ⟨⟨_, rfl, by decide⟩, fun w hw => ?_⟩
  injection hw with hw; subst hw
  refine ⟨⟨_, rfl⟩, fun w hw => ?_⟩
  injection hw with hw; subst hw
  refine ⟨⟨_, rfl, by decide⟩, fun w hw => ?_⟩
  injection hw with hw; subst hw
  exact ⟨⟨_, rfl⟩, fun _ _ => trivial⟩

example : cRun CWorld.empty [.ctor 2 1 true, .clone 0, .eval 1, .delete 0, .eval 1, .delete 1] =
    some ⟨10, [8, 9, 7, 4, 5, 3], [none, none], []⟩ := by decide

example : lostBlocks [.ctor 2 1 true, .clone 0, .eval 1, .delete 0, .eval 1, .delete 1] = 4 := by decide

example : Tidy CWorld.empty [.ctor 2 1 true, .eval 0, .destroy 0, .delete 0] := by
  refine ⟨⟨⟨by decide, Or.inl rfl⟩, trivial⟩, fun w hw => ?_⟩
  injection hw with hw; subst hw
  refine ⟨⟨⟨_, rfl, by decide⟩, trivial⟩, fun w hw => ?_⟩
  injection hw with hw; subst hw
  refine ⟨⟨⟨_, rfl, ?_⟩, trivial⟩, fun w hw => ?_⟩
  · intro j o' hj ho'
    cases j with
    | zero => exact absurd rfl hj
    | succ j => cases ho'
  injection hw with hw; subst hw
  refine ⟨⟨⟨_, rfl⟩, ?_⟩, fun _ _ => trivial⟩
  intro o ho
  injection ho with ho
  injection ho with ho
  subst ho
  rfl

example : cRun CWorld.empty [.ctor 2 1 true, .eval 0, .destroy 0, .delete 0] = some ⟨6, [4, 5, 3, 2, 0, 1], [none], []⟩ := by decide

example : cRun CWorld.empty [.gnew, .gload 0 [(2, 1), (3, 2)] true, .gclone 0, .gdelete 1, .gdelete 0] ≠ none := by decide

/-- Whatever is done with a distribution that does not exist, or does not exist any more, is
undefined. -/
theorem C104_dead (w : CWorld) (i : Nat) :
    ((∀ o, w.objs[i]? ≠ some (some o)) →
      (∀ np nleg p f known, cStep w (.init i np nleg p f known) = .ub) ∧
      (∀ np nleg known, cStep w (.load i np nleg known) = .ub) ∧
      cStep w (.clone i) = .ub ∧ cStep w (.destroy i) = .ub ∧ cStep w (.delete i) = .ub ∧
      cStep w (.eval i) = .ub) ∧
    ((∀ g, w.gobjs[i]? ≠ some (some g)) →
      (∀ ds known, cStep w (.gload i ds known) = .ub) ∧ cStep w (.gclone i) = .ub ∧
      cStep w (.gdelete i) = .ub) := by
  constructor
  · intro h
    have hw : ∀ k, withObj w i k = .ub := by
      intro k
      unfold withObj
      split
      · rename_i o ho; exact absurd ho (h o)
      · rfl
    refine ⟨fun _ _ _ _ _ => ?_, fun _ _ _ => ?_, ?_, ?_, ?_, ?_⟩ <;> simp only [cStep, hw]
  · intro h
    have hw : ∀ k, withGObj w i k = .ub := by
      intro k
      unfold withGObj
      split
      · rename_i o ho; exact absurd ho (h o)
      · rfl
    refine ⟨fun _ _ => ?_, ?_, ?_⟩ <;> simp only [cStep, hw]

/-- Deleting the same distribution twice. -/
example : cRun CWorld.empty [.ctor 1 0 true, .delete 0, .delete 0] = none := by decide +kernel

/-- Evaluating reads through the four arrays and the interpolators: none of them may be null or
released.  It changes nothing. -/
theorem C104_eval (w : CWorld) (i : Nat) (o : CObj) (ho : w.objs[i]? = some (some o)) :
    (cStep w (.eval i) = .ub ∨ cStep w (.eval i) = .ok w) ∧
    (cStep w (.eval i) = .ok w → ∀ q ∈ [o.p, o.f, o.leg, o.accel, o.interp],
      ∃ b, q = some b ∧ b < w.next ∧ b ∉ w.freed) := by
  have live : ∀ b, w.live b = true → b < w.next ∧ b ∉ w.freed := by
    intro b hb
    simpa [CWorld.live] using hb
  have liveP : ∀ q, w.liveP q = true → ∃ b, q = some b ∧ b < w.next ∧ b ∉ w.freed := by
    intro q hq
    cases q with
    | none => cases hq
    | some b => exact ⟨b, rfl, live b hq⟩
  have he : cStep w (.eval i) = cEval w o := by simp only [cStep, withObj, ho]
  rw [he]
  unfold cEval
  split
  · rename_i hd hi
    split
    · split
      · rename_i hc
        refine ⟨.inr rfl, fun _ q hq => ?_⟩
        obtain ⟨h1, h2, h3, h4, h5, -⟩ := hc
        simp only [List.mem_cons, List.not_mem_nil, or_false] at hq
        rcases hq with rfl | rfl | rfl | rfl | rfl
        · exact liveP _ h1
        · exact liveP _ h2
        · exact liveP _ h3
        · exact liveP _ h4
        · exact ⟨_, hi, live _ h5⟩
      · exact ⟨.inl rfl, fun h => by cases h⟩
    · exact ⟨.inl rfl, fun h => by cases h⟩
  · exact ⟨.inl rfl, fun h => by cases h⟩

end Softlib
