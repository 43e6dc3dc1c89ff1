/-
Property C109: pointers to settings and blocks stay valid.
-/
import Verif.Config.PtrModel

namespace Softlib

open Softlib.Config Softlib.Config.Ptr

namespace Config.Ptr

/-- Every pointer stored in a live block leads to a live object, and addresses not handed out yet are
not live. -/
structure Sound (st : PSt) : Prop where
  freshS : ∀ a, st.next ≤ a → st.set a = none
  freshB : ∀ a, st.next ≤ a → st.blk a = none
  sets : ∀ b pb, st.blk b = some pb → ∀ a ∈ pb.sets, ∃ s, st.set a = some s
  subs : ∀ b pb, st.blk b = some pb → ∀ c ∈ pb.subs, ∃ pc, st.blk c = some pc

/-- The later block is the earlier one with settings and sub-blocks added at the end. -/
structure Later (pb pb' : PBlk) : Prop where
  ty : pb'.ty = pb.ty
  name : pb'.name = pb.name
  sec : pb'.sec = pb.sec
  parent : pb'.parent = pb.parent
  sets : pb.sets <+: pb'.sets
  subs : pb.subs <+: pb'.subs

/-- What calls do to the objects there were before: names and types stay, blocks only grow, no object
comes back, and none is lost but the settings in `LS` and the blocks in `LB`. -/
structure Evo (LS LB : Nat → Prop) (st st' : PSt) : Prop where
  next : st.next ≤ st'.next
  blk : ∀ b < st.next, ∀ pb', st'.blk b = some pb' → ∃ pb, st.blk b = some pb ∧ Later pb pb'
  set : ∀ a < st.next, ∀ s', st'.set a = some s' → ∃ s, st.set a = some s ∧ s'.name = s.name
  liveS : ∀ a s, st.set a = some s → ¬ LS a → ∃ s', st'.set a = some s'
  liveB : ∀ b pb, st.blk b = some pb → ¬ LB b → ∃ pb', st'.blk b = some pb'

/-- Nothing is lost. -/
abbrev Grow : PSt → PSt → Prop := Evo (fun _ => False) (fun _ => False)

/-- The block `x` is `b` or below it. -/
inductive ReachB (st : PSt) : Nat → Nat → Prop
  | self (b : Nat) : ReachB st b b
  | sub (b c x : Nat) (pb : PBlk) : st.blk b = some pb → c ∈ pb.subs → ReachB st c x → ReachB st b x

/-- The setting `a` belongs to `b` or a block below it. -/
def ReachS (st : PSt) (b a : Nat) : Prop :=
  ∃ c pc, ReachB st b c ∧ st.blk c = some pc ∧ a ∈ pc.sets

/-- The call is not undefined, and if it ends its result has the property. -/
def Safe {α : Type} (x : R α) (P : α → Prop) : Prop :=
  match x with
  | .ub => False
  | .deep => True
  | .ok a => P a

theorem Safe_bind {α β : Type} {x : R α} {k : α → R β} {P : α → Prop} {Q : β → Prop}
    (h : Safe x P) (hk : ∀ a, P a → Safe (k a) Q) : Safe (x.bind k) Q := by
  cases x with
  | ub => exact h
  | deep => trivial
  | ok a => exact hk a h

theorem Safe_mono {α : Type} {x : R α} {P Q : α → Prop} (h : Safe x P) (hk : ∀ a, P a → Q a) :
    Safe x Q := by
  cases x with
  | ub => exact h
  | deep => trivial
  | ok a => exact hk a h

theorem bind_ok {α β : Type} {x : R α} {k : α → R β} {b : β} (h : x.bind k = .ok b) :
    ∃ a, x = .ok a ∧ k a = .ok b := by
  cases x with
  | ub => cases h
  | deep => cases h
  | ok a => exact ⟨a, rfl, h⟩

theorem getSet_ok {st : PSt} {a : Nat} {s : PSet} : st.getSet a = .ok s ↔ st.set a = some s := by
  unfold PSt.getSet
  cases st.set a <;> simp

theorem getBlk_ok {st : PSt} {a : Nat} {s : PBlk} : st.getBlk a = .ok s ↔ st.blk a = some s := by
  unfold PSt.getBlk
  cases st.blk a <;> simp

theorem getSet_safe {st : PSt} {a : Nat} {s : PSet} (h : st.set a = some s) :
    Safe (st.getSet a) (fun s' => s' = s) := by
  rw [getSet_ok.2 h]; rfl

theorem getBlk_safe {st : PSt} {a : Nat} {s : PBlk} (h : st.blk a = some s) :
    Safe (st.getBlk a) (fun s' => s' = s) := by
  rw [getBlk_ok.2 h]; rfl

theorem Later.refl (pb : PBlk) : Later pb pb := ⟨rfl, rfl, rfl, rfl, List.prefix_refl _, List.prefix_refl _⟩

theorem Later.trans {a b c : PBlk} (h : Later a b) (g : Later b c) : Later a c :=
  ⟨g.ty.trans h.ty, g.name.trans h.name, g.sec.trans h.sec, g.parent.trans h.parent,
    h.sets.trans g.sets, h.subs.trans g.subs⟩

theorem Evo.refl (LS LB : Nat → Prop) (st : PSt) : Evo LS LB st st :=
  ⟨Nat.le_refl _, fun _ _ pb h => ⟨pb, h, Later.refl pb⟩, fun _ _ s h => ⟨s, h, rfl⟩, fun _ s h _ => ⟨s, h⟩,
    fun _ pb h _ => ⟨pb, h⟩⟩

theorem Evo.trans {LS LB : Nat → Prop} {a b c : PSt} (h : Evo LS LB a b) (g : Evo LS LB b c) :
    Evo LS LB a c := by
  refine ⟨Nat.le_trans h.next g.next, ?_, ?_, ?_, ?_⟩
  · intro x hx pb' e
    obtain ⟨pb, e1, l1⟩ := g.blk x (Nat.lt_of_lt_of_le hx h.next) pb' e
    obtain ⟨pb0, e0, l0⟩ := h.blk x hx pb e1
    exact ⟨pb0, e0, l0.trans l1⟩
  · intro x hx s' e
    obtain ⟨s, e1, l1⟩ := g.set x (Nat.lt_of_lt_of_le hx h.next) s' e
    obtain ⟨s0, e0, l0⟩ := h.set x hx s e1
    exact ⟨s0, e0, l1.trans l0⟩
  · intro x s e hl
    obtain ⟨s1, e1⟩ := h.liveS x s e hl
    exact g.liveS x s1 e1 hl
  · intro x s e hl
    obtain ⟨s1, e1⟩ := h.liveB x s e hl
    exact g.liveB x s1 e1 hl

theorem Evo.mono {LS LB MS MB : Nat → Prop} {a b : PSt} (h : Evo LS LB a b) (hs : ∀ x, LS x → MS x)
    (hb : ∀ x, LB x → MB x) : Evo MS MB a b :=
  ⟨h.next, h.blk, h.set, fun x s e hl => h.liveS x s e (fun k => hl (hs x k)),
    fun x s e hl => h.liveB x s e (fun k => hl (hb x k))⟩

/-! ### single stores -/

theorem putSet_sound {st : PSt} (h : Sound st) {a : Nat} {s s' : PSet} (e : st.set a = some s)
    (hn : s'.name = s.name) : Sound (st.putSet a s') ∧ Grow st (st.putSet a s') := by
  refine ⟨⟨?_, h.freshB, ?_, h.subs⟩, Nat.le_refl _, fun _ _ pb h => ⟨pb, h, Later.refl pb⟩, ?_, ?_,
    fun _ pb h _ => ⟨pb, h⟩⟩
  · intro x hx
    simp only [PSt.putSet]
    by_cases hxa : x = a
    · subst hxa; rw [h.freshS x hx] at e; cases e
    · rw [if_neg hxa]; exact h.freshS x hx
  · intro b pb hb x hx
    simp only [PSt.putSet]
    by_cases hxa : x = a
    · exact ⟨s', by rw [if_pos hxa]⟩
    · rw [if_neg hxa]; exact h.sets b pb hb x hx
  · intro x hx t ht
    simp only [PSt.putSet] at ht
    by_cases hxa : x = a
    · rw [if_pos hxa] at ht
      cases ht
      exact ⟨s, hxa ▸ e, hn⟩
    · rw [if_neg hxa] at ht; exact ⟨t, ht, rfl⟩
  · intro x t ht _
    simp only [PSt.putSet]
    by_cases hxa : x = a
    · exact ⟨s', by rw [if_pos hxa]⟩
    · rw [if_neg hxa]; exact ⟨t, ht⟩

theorem putBlk_sound {st : PSt} (h : Sound st) {b : Nat} {pb pb' : PBlk} (e : st.blk b = some pb)
    (hl : Later pb pb') (hs : ∀ a ∈ pb'.sets, ∃ s, st.set a = some s)
    (hc : ∀ c ∈ pb'.subs, ∃ s, st.blk c = some s) :
    Sound (st.putBlk b pb') ∧ Grow st (st.putBlk b pb') := by
  have live : ∀ c, (∃ s, st.blk c = some s) → ∃ s, (st.putBlk b pb').blk c = some s := by
    rintro c ⟨s, k⟩
    simp only [PSt.putBlk]
    by_cases hx : c = b
    · exact ⟨pb', by rw [if_pos hx]⟩
    · rw [if_neg hx]; exact ⟨s, k⟩
  refine ⟨⟨h.freshS, ?_, ?_, ?_⟩, Nat.le_refl _, ?_, fun _ _ s h => ⟨s, h, rfl⟩, fun _ s h _ => ⟨s, h⟩,
    fun x s k _ => live x ⟨s, k⟩⟩
  · intro x hx
    simp only [PSt.putBlk]
    by_cases hxb : x = b
    · subst hxb; rw [h.freshB x hx] at e; cases e
    · rw [if_neg hxb]; exact h.freshB x hx
  · intro x px hx a ha
    simp only [PSt.putBlk] at hx
    by_cases hxb : x = b
    · rw [if_pos hxb] at hx; cases hx; exact hs a ha
    · rw [if_neg hxb] at hx; exact h.sets x px hx a ha
  · intro x px hx c hcm
    apply live
    simp only [PSt.putBlk] at hx
    by_cases hxb : x = b
    · rw [if_pos hxb] at hx; cases hx; exact hc c hcm
    · rw [if_neg hxb] at hx; exact h.subs x px hx c hcm
  · intro x hx px hp
    simp only [PSt.putBlk] at hp
    by_cases hxb : x = b
    · rw [if_pos hxb] at hp; cases hp; exact ⟨pb, hxb ▸ e, hl⟩
    · rw [if_neg hxb] at hp; exact ⟨px, hp, Later.refl px⟩

theorem newSet_sound {st : PSt} (h : Sound st) (n : Str) (vs : List Str) :
    Sound (newSet st n vs).2 ∧ Grow st (newSet st n vs).2 ∧
    (newSet st n vs).2.set (newSet st n vs).1 = some ⟨n, vs, false⟩ := by
  have live : ∀ a, (∃ s, st.set a = some s) → ∃ s, (newSet st n vs).2.set a = some s := by
    rintro a ⟨s, k⟩
    simp only [newSet, PSt.putSet]
    by_cases hx : a = st.next
    · exact ⟨_, by rw [if_pos hx]⟩
    · rw [if_neg hx]; exact ⟨s, k⟩
  refine ⟨⟨?_, ?_, ?_, h.subs⟩, ⟨?_, fun _ _ pb h => ⟨pb, h, Later.refl pb⟩, ?_,
    fun x s k _ => live x ⟨s, k⟩, fun _ pb h _ => ⟨pb, h⟩⟩, ?_⟩
  · intro x hx
    simp only [newSet, PSt.putSet] at hx ⊢
    rw [if_neg (by omega)]
    exact h.freshS x (by omega)
  · intro x hx
    simp only [newSet] at hx
    exact h.freshB x (by omega)
  · intro b pb hb x hx
    exact live x (h.sets b pb hb x hx)
  · simp only [newSet]; omega
  · intro x hx t ht
    simp only [newSet, PSt.putSet] at ht
    rw [if_neg (by omega)] at ht
    exact ⟨t, ht, rfl⟩
  · simp [newSet, PSt.putSet]

theorem newBlk_sound {st : PSt} (h : Sound st) (p : PBlk)
    (hs : ∀ a ∈ p.sets, ∃ s, st.set a = some s) (hc : ∀ c ∈ p.subs, ∃ s, st.blk c = some s) :
    Sound (newBlk st p).2 ∧ Grow st (newBlk st p).2 ∧ (newBlk st p).2.blk (newBlk st p).1 = some p := by
  have live : ∀ a, (∃ s, st.blk a = some s) → ∃ s, (newBlk st p).2.blk a = some s := by
    rintro a ⟨s, k⟩
    simp only [newBlk, PSt.putBlk]
    by_cases hx : a = st.next
    · exact ⟨_, by rw [if_pos hx]⟩
    · rw [if_neg hx]; exact ⟨s, k⟩
  refine ⟨⟨?_, ?_, ?_, ?_⟩, ⟨?_, ?_, fun _ _ s h => ⟨s, h, rfl⟩,
    fun _ s h _ => ⟨s, h⟩, fun x s k _ => live x ⟨s, k⟩⟩, ?_⟩
  · intro x hx
    simp only [newBlk] at hx
    exact h.freshS x (by omega)
  · intro x hx
    simp only [newBlk, PSt.putBlk] at hx ⊢
    rw [if_neg (by omega)]
    exact h.freshB x (by omega)
  · intro b pb hb x hx
    simp only [newBlk, PSt.putBlk] at hb
    by_cases hx' : b = st.next
    · rw [if_pos hx'] at hb; cases hb; exact hs x hx
    · rw [if_neg hx'] at hb; exact h.sets b pb hb x hx
  · intro b pb hb x hx
    apply live
    simp only [newBlk, PSt.putBlk] at hb
    by_cases hx' : b = st.next
    · rw [if_pos hx'] at hb; cases hb; exact hc x hx
    · rw [if_neg hx'] at hb; exact h.subs b pb hb x hx
  · simp only [newBlk]; omega
  · intro x hx t ht
    simp only [newBlk, PSt.putBlk] at ht
    rw [if_neg (by omega)] at ht
    exact ⟨t, ht, Later.refl t⟩
  · simp [newBlk, PSt.putBlk]

/-! ### the searches -/

theorem findSet_safe {st : PSt} (n : Str) : ∀ l : List Nat, (∀ a ∈ l, ∃ s, st.set a = some s) →
    Safe (findSet st n l) (fun r => match r with
      | some a => a ∈ l ∧ ∃ s, st.set a = some s ∧ s.name = n
      | none => ∀ a ∈ l, ∀ s, st.set a = some s → s.name ≠ n) := by
  intro l
  induction l with
  | nil =>
    intro _
    simp only [findSet, Safe]
    intro a ha
    cases ha
  | cons a l ih =>
    intro h
    obtain ⟨s, e⟩ := h a (by simp)
    simp only [findSet]
    refine Safe_bind (getSet_safe e) ?_
    rintro _ rfl
    rename_i s
    by_cases hn : s.name = n
    · rw [if_pos hn]
      exact ⟨by simp, s, e, hn⟩
    · rw [if_neg hn]
      refine Safe_mono (ih (fun x hx => h x (by simp [hx]))) ?_
      rintro (_ | x)
      · intro hr y hy t ht
        rcases List.mem_cons.1 hy with rfl | hy
        · rw [e] at ht; cases ht; exact hn
        · exact hr y hy t ht
      · rintro ⟨h1, h2⟩
        exact ⟨by simp [h1], h2⟩

theorem findBlk_safe {st : PSt} (t : Nat) (n : Str) : ∀ l : List Nat,
    (∀ a ∈ l, ∃ s, st.blk a = some s) →
    Safe (findBlk st t n l) (fun r => match r with
      | some a => a ∈ l ∧ ∃ s, st.blk a = some s ∧ s.ty = t ∧ s.name = n
      | none => True) := by
  intro l
  induction l with
  | nil => intro _; simp only [findBlk, Safe]
  | cons a l ih =>
    intro h
    obtain ⟨s, e⟩ := h a (by simp)
    simp only [findBlk]
    refine Safe_bind (getBlk_safe e) ?_
    rintro _ rfl
    rename_i s
    by_cases hn : s.ty = t ∧ s.name = n
    · rw [if_pos hn]
      exact ⟨by simp, s, e, hn⟩
    · rw [if_neg hn]
      refine Safe_mono (ih (fun x hx => h x (by simp [hx]))) ?_
      rintro (_ | x)
      · exact fun _ => trivial
      · rintro ⟨h1, h2⟩
        exact ⟨by simp [h1], h2⟩

/-! ### the calls that release nothing -/

theorem getSetting_safe {st : PSt} (h : Sound st) {b : Nat} {pb : PBlk} (hb : st.blk b = some pb) (n : Str) :
    Safe (getSetting st b n) (fun r => Sound r.2 ∧ Grow st r.2) := by
  unfold getSetting
  refine Safe_bind (getBlk_safe hb) ?_
  rintro _ rfl
  rename_i pb
  refine Safe_bind (findSet_safe n pb.sets (h.sets b pb hb)) ?_
  rintro (_ | a) hr
  · exact ⟨h, Evo.refl _ _ _⟩
  · obtain ⟨-, s, hs, -⟩ := hr
    refine Safe_bind (getSet_safe hs) ?_
    rintro _ rfl
    exact putSet_sound h hs rfl

theorem addSubBlock_safe {st : PSt} (h : Sound st) {b c : Nat} {pb pc : PBlk} (hb : st.blk b = some pb)
    (hc : st.blk c = some pc) :
    Safe (addSubBlock st b c) (fun r => Sound r.2 ∧ Grow st r.2 ∧ ∃ p, r.2.blk r.1 = some p) := by
  unfold addSubBlock
  refine Safe_bind (getBlk_safe hc) ?_
  rintro _ rfl
  refine Safe_bind (getBlk_safe hb) ?_
  rintro _ rfl
  rename_i pc pb
  refine Safe_bind (findBlk_safe pc.ty pc.name pb.subs (h.subs b pb hb)) ?_
  rintro (_ | d) hr
  · have hp := putBlk_sound h hb (pb' := { pb with subs := pb.subs ++ [c] })
      ⟨rfl, rfl, rfl, rfl, List.prefix_refl _, List.prefix_append _ _⟩ (h.sets b pb hb) (by
        intro x hx
        rcases List.mem_append.1 hx with hx | hx
        · exact h.subs b pb hb x hx
        · rw [List.mem_singleton] at hx; exact ⟨pc, hx ▸ hc⟩)
    exact ⟨hp.1, hp.2, hp.2.liveB c pc hc id⟩
  · obtain ⟨-, s, hs, -⟩ := hr
    exact ⟨h, Evo.refl _ _ _, s, hs⟩

theorem addNewBlock_safe {st : PSt} (h : Sound st) {b : Nat} {pb : PBlk} (hb : st.blk b = some pb)
    (t : Nat) (n sec : Str) :
    Safe (addNewBlock st b t n sec) (fun r => Sound r.2 ∧ Grow st r.2 ∧ ∃ p, r.2.blk r.1 = some p) := by
  unfold addNewBlock
  obtain ⟨h1, h2, h3⟩ := newBlk_sound h ⟨t, n, sec, some b, [], []⟩ (by simp) (by simp)
  obtain ⟨pb', hb'⟩ := h2.liveB b pb hb id
  refine Safe_mono (addSubBlock_safe h1 hb' h3) ?_
  rintro r ⟨r1, r2, r3⟩
  exact ⟨r1, h2.trans r2, r3⟩

theorem mergeSet_safe {st : PSt} (h : Sound st) (an : Bool) {b a : Nat} {pb : PBlk} {s : PSet}
    (hb : st.blk b = some pb) (ha : st.set a = some s) :
    Safe (mergeSet an b st a) (fun r => Sound r ∧ Grow st r) := by
  unfold mergeSet
  refine Safe_bind (getSet_safe ha) ?_
  rintro _ rfl
  refine Safe_bind (getBlk_safe hb) ?_
  rintro _ rfl
  rename_i s pb
  refine Safe_bind (findSet_safe s.name pb.sets (h.sets b pb hb)) ?_
  rintro (_ | t) hr
  · show Safe (if an = true then _ else _) _
    split
    · exact putBlk_sound h hb (pb' := { pb with sets := pb.sets ++ [a] })
        ⟨rfl, rfl, rfl, rfl, List.prefix_append _ _, List.prefix_refl _⟩ (by
        intro x hx
        rcases List.mem_append.1 hx with hx | hx
        · exact h.sets b pb hb x hx
        · rw [List.mem_singleton] at hx; exact ⟨s, hx ▸ ha⟩) (h.subs b pb hb)
    · exact ⟨h, Evo.refl _ _ _⟩
  · obtain ⟨-, s', hs, -⟩ := hr
    refine Safe_bind (getSet_safe hs) ?_
    rintro _ rfl
    exact putSet_sound h hs rfl

theorem mergeSets_safe (an : Bool) (b : Nat) : ∀ (l : List Nat) (st : PSt), Sound st →
    (∃ pb, st.blk b = some pb) → (∀ a ∈ l, ∃ s, st.set a = some s) →
    Safe (mergeSets an b l st) (fun r => Sound r ∧ Grow st r) := by
  intro l
  induction l with
  | nil => intro st h _ _; exact ⟨h, Evo.refl _ _ _⟩
  | cons a l ih =>
    rintro st h ⟨pb, hb⟩ hl
    obtain ⟨s, hs⟩ := hl a (by simp)
    simp only [mergeSets]
    refine Safe_bind (mergeSet_safe h an hb hs) ?_
    rintro st1 ⟨h1, g1⟩
    refine Safe_mono (ih st1 h1 (g1.liveB b pb hb id) (fun x hx => ?_)) (fun r hr => ⟨hr.1, g1.trans hr.2⟩)
    obtain ⟨t, ht⟩ := hl x (by simp [hx])
    exact g1.liveS x t ht id

theorem copySets_safe : ∀ (l : List Nat) (st : PSt), Sound st → (∀ a ∈ l, ∃ s, st.set a = some s) →
    Safe (Ptr.copySets l st) (fun r => Sound r.2 ∧ Grow st r.2 ∧ ∀ a ∈ r.1, ∃ s, r.2.set a = some s) := by
  intro l
  induction l with
  | nil => intro st h _; exact ⟨h, Evo.refl _ _ _, by simp⟩
  | cons a l ih =>
    intro st h hl
    obtain ⟨s, hs⟩ := hl a (by simp)
    simp only [Ptr.copySets]
    refine Safe_bind (getSet_safe hs) ?_
    rintro _ rfl
    rename_i s
    obtain ⟨h1, g1, e1⟩ := newSet_sound h s.name s.vals
    refine Safe_bind (ih _ h1 (fun x hx => ?_)) ?_
    · obtain ⟨t, ht⟩ := hl x (by simp [hx])
      exact g1.liveS x t ht id
    · rintro q ⟨q1, q2, q3⟩
      refine ⟨q1, g1.trans q2, ?_⟩
      intro x hx
      rcases List.mem_cons.1 hx with rfl | hx
      · exact q2.liveS _ _ e1 id
      · exact q3 x hx

theorem copySubs_safe (cp : PSt → Nat → R (Nat × PSt))
    (hcp : ∀ st b, Sound st → (∃ pb, st.blk b = some pb) →
      Safe (cp st b) (fun r => Sound r.2 ∧ Grow st r.2 ∧ ∃ p, r.2.blk r.1 = some p)) :
    ∀ (l : List Nat) (st : PSt), Sound st → (∀ a ∈ l, ∃ s, st.blk a = some s) →
    Safe (copySubs cp l st) (fun r => Sound r.2 ∧ Grow st r.2 ∧ ∀ a ∈ r.1, ∃ s, r.2.blk a = some s) := by
  intro l
  induction l with
  | nil => intro st h _; exact ⟨h, Evo.refl _ _ _, by simp⟩
  | cons a l ih =>
    intro st h hl
    simp only [copySubs]
    refine Safe_bind (hcp st a h (hl a (by simp))) ?_
    rintro r ⟨h1, g1, p, e1⟩
    refine Safe_bind (ih _ h1 (fun x hx => ?_)) ?_
    · obtain ⟨t, ht⟩ := hl x (by simp [hx])
      exact g1.liveB x t ht id
    · rintro q ⟨q1, q2, q3⟩
      refine ⟨q1, g1.trans q2, ?_⟩
      intro x hx
      rcases List.mem_cons.1 hx with rfl | hx
      · exact q2.liveB _ _ e1 id
      · exact q3 x hx

theorem copyBlk_safe : ∀ (f : Nat) (st : PSt) (b : Nat), Sound st → (∃ pb, st.blk b = some pb) →
    Safe (copyBlk f st b) (fun r => Sound r.2 ∧ Grow st r.2 ∧ ∃ p, r.2.blk r.1 = some p) := by
  intro f
  induction f with
  | zero => intro st b _ _; exact trivial
  | succ f ih =>
    rintro st b h ⟨pb, hb⟩
    simp only [copyBlk]
    refine Safe_bind (getBlk_safe hb) ?_
    rintro _ rfl
    rename_i pb
    refine Safe_bind (copySubs_safe (copyBlk f) ih pb.subs st h (h.subs b pb hb)) ?_
    rintro r ⟨r1, r2, r3⟩
    refine Safe_bind (copySets_safe pb.sets r.2 r1 (fun x hx => ?_)) ?_
    · obtain ⟨t, ht⟩ := h.sets b pb hb x hx
      exact r2.liveS x t ht id
    · rintro q ⟨q1, q2, q3⟩
      obtain ⟨h1, g1, e1⟩ := newBlk_sound q1 ⟨pb.ty, pb.name, if pb.sec = [] then pb.name else pb.sec,
        pb.parent, q.1, r.1⟩ q3 (fun c hc => by
          obtain ⟨t, ht⟩ := r3 c hc
          exact q2.liveB c t ht id)
      exact ⟨h1, (r2.trans q2).trans g1, _, e1⟩

theorem mergeSubs_safe (an : Bool) (cp : PSt → Nat → R (Nat × PSt)) (mg : PSt → Nat → Nat → R PSt) (b : Nat)
    (hcp : ∀ st b, Sound st → (∃ pb, st.blk b = some pb) →
      Safe (cp st b) (fun r => Sound r.2 ∧ Grow st r.2 ∧ ∃ p, r.2.blk r.1 = some p))
    (hmg : ∀ st c d, Sound st → (∃ pb, st.blk c = some pb) → (∃ pb, st.blk d = some pb) →
      Safe (mg st c d) (fun r => Sound r ∧ Grow st r)) :
    ∀ (l : List Nat) (st : PSt), Sound st → (∃ pb, st.blk b = some pb) →
    (∀ a ∈ l, ∃ s, st.blk a = some s) →
    Safe (mergeSubs an cp mg b l st) (fun r => Sound r ∧ Grow st r) := by
  intro l
  induction l with
  | nil => intro st h _ _; exact ⟨h, Evo.refl _ _ _⟩
  | cons c l ih =>
    rintro st h ⟨pb, hb⟩ hl
    obtain ⟨pc, hc⟩ := hl c (by simp)
    simp only [mergeSubs]
    have one : Safe (mergeSub an cp mg b st c) (fun r => Sound r ∧ Grow st r) := by
      unfold mergeSub
      refine Safe_bind (getBlk_safe hc) ?_
      rintro _ rfl
      refine Safe_bind (getBlk_safe hb) ?_
      rintro _ rfl
      rename_i pc pb
      refine Safe_bind (findBlk_safe pc.ty pc.name pb.subs (h.subs b pb hb)) ?_
      rintro (_ | d) hr
      · show Safe (if an = true then _ else _) _
        split
        · refine Safe_bind (hcp st c h ⟨pc, hc⟩) ?_
          rintro r ⟨r1, r2, p, r3⟩
          obtain ⟨pb', hb'⟩ := r2.liveB b pb hb id
          refine Safe_bind (addSubBlock_safe r1 hb' r3) ?_
          rintro q ⟨q1, q2, -⟩
          exact ⟨q1, r2.trans q2⟩
        · exact ⟨h, Evo.refl _ _ _⟩
      · obtain ⟨-, s, hs, -⟩ := hr
        exact hmg st c d h ⟨pc, hc⟩ ⟨s, hs⟩
    refine Safe_bind one ?_
    rintro st1 ⟨h1, g1⟩
    refine Safe_mono (ih st1 h1 (g1.liveB b pb hb id) (fun x hx => ?_)) (fun r hr => ⟨hr.1, g1.trans hr.2⟩)
    obtain ⟨t, ht⟩ := hl x (by simp [hx])
    exact g1.liveB x t ht id

theorem merge_safe (an : Bool) : ∀ (f : Nat) (st : PSt) (cb b : Nat), Sound st →
    (∃ pb, st.blk cb = some pb) → (∃ pb, st.blk b = some pb) →
    Safe (Ptr.merge an f st cb b) (fun r => Sound r ∧ Grow st r) := by
  intro f
  induction f with
  | zero => intro st cb b _ _ _; exact trivial
  | succ f ih =>
    rintro st cb b h ⟨pc, hc⟩ ⟨pb, hb⟩
    simp only [Ptr.merge]
    refine Safe_bind (getBlk_safe hc) ?_
    rintro _ rfl
    rename_i pc
    refine Safe_bind (mergeSets_safe an b pc.sets st h ⟨pb, hb⟩ (h.sets cb pc hc)) ?_
    rintro st1 ⟨h1, g1⟩
    obtain ⟨pc1, hc1⟩ := g1.liveB cb pc hc id
    refine Safe_bind (getBlk_safe hc1) ?_
    rintro _ rfl
    rename_i pc1
    refine Safe_mono (mergeSubs_safe an (copyBlk f) (Ptr.merge an f) b (copyBlk_safe f) ih pc1.subs st1 h1
      (g1.liveB b pb hb id) (h1.subs cb pc1 hc1)) (fun r hr => ⟨hr.1, g1.trans hr.2⟩)

/-! ### `AddSetting` -/

/-- The block has a setting of the name of setting `a`. -/
def Replaces (st : PSt) (b a : Nat) : Prop :=
  ∃ pb s, st.blk b = some pb ∧ st.set a = some s ∧
    ∃ x ∈ pb.sets, ∃ sx, st.set x = some sx ∧ sx.name = s.name

/-- No block has a pointer to the setting. -/
def Unheld (st : PSt) (a : Nat) : Prop := ∀ d pd, st.blk d = some pd → a ∉ pd.sets

theorem addSetting_new {st : PSt} (h : Sound st) {b a : Nat} {pb : PBlk} {s : PSet}
    (hb : st.blk b = some pb) (ha : st.set a = some s) (hr : ¬ Replaces st b a) :
    addSetting st b a = .ok (a, st.putBlk b { pb with sets := pb.sets ++ [a] }) := by
  unfold addSetting
  rw [getSet_ok.2 ha, getBlk_ok.2 hb]
  simp only [R.bind]
  have hf := findSet_safe s.name pb.sets (h.sets b pb hb)
  have hd : ∀ l, findSet st s.name l ≠ .deep := by
    intro l
    induction l with
    | nil => intro h; cases h
    | cons x l ih =>
      intro h
      simp only [findSet] at h
      unfold PSt.getSet at h
      cases e : st.set x with
      | none => rw [e] at h; cases h
      | some sx =>
        rw [e] at h
        simp only [R.bind] at h
        by_cases hn : sx.name = s.name
        · rw [if_pos hn] at h; cases h
        · rw [if_neg hn] at h; exact ih h
  cases e : findSet st s.name pb.sets with
  | ub => rw [e] at hf; exact hf.elim
  | deep => exact (hd _ e).elim
  | ok r =>
    rw [e] at hf
    cases r with
    | none => rfl
    | some t =>
      obtain ⟨h1, s', h2, h3⟩ := hf
      exact absurd ⟨pb, s, hb, ha, t, h1, s', h2, h3⟩ hr

theorem addSetting_old {st : PSt} (h : Sound st) {b a : Nat} {pb : PBlk} {s : PSet}
    (hb : st.blk b = some pb) (ha : st.set a = some s) (hr : Replaces st b a) :
    ∃ t old, t ∈ pb.sets ∧ st.set t = some old ∧ old.name = s.name ∧
      addSetting st b a = .ok (t, (st.putSet t { old with vals := s.vals, touched := true }).delSet a) := by
  obtain ⟨pb', s', hb', ha', x, hx, sx, hsx, hn⟩ := hr
  rw [hb] at hb'; cases hb'
  rw [ha] at ha'; cases ha'
  have hf := findSet_safe s.name pb.sets (h.sets b pb hb)
  have hd : ∀ l, findSet st s.name l ≠ .deep := by
    intro l
    induction l with
    | nil => intro h; cases h
    | cons x l ih =>
      intro h
      simp only [findSet] at h
      unfold PSt.getSet at h
      cases e : st.set x with
      | none => rw [e] at h; cases h
      | some sx =>
        rw [e] at h
        simp only [R.bind] at h
        by_cases hn : sx.name = s.name
        · rw [if_pos hn] at h; cases h
        · rw [if_neg hn] at h; exact ih h
  cases e : findSet st s.name pb.sets with
  | ub => rw [e] at hf; exact hf.elim
  | deep => exact (hd _ e).elim
  | ok r =>
    rw [e] at hf
    cases r with
    | none => exact absurd hn (hf x hx sx hsx)
    | some t =>
      obtain ⟨h1, s', h2, h3⟩ := hf
      refine ⟨t, s', h1, h2, h3, ?_⟩
      unfold addSetting
      rw [getSet_ok.2 ha, getBlk_ok.2 hb]
      simp only [R.bind]
      rw [e]
      simp only
      rw [getSet_ok.2 h2]

theorem delSet_evo {st : PSt} (a : Nat) : Evo (· = a) (fun _ => False) st (st.delSet a) := by
  refine ⟨Nat.le_refl _, fun _ _ pb h => ⟨pb, h, Later.refl pb⟩, ?_, ?_, fun _ pb h _ => ⟨pb, h⟩⟩
  · intro x hx s hs
    simp only [PSt.delSet] at hs
    by_cases hxa : x = a
    · rw [if_pos hxa] at hs; cases hs
    · rw [if_neg hxa] at hs; exact ⟨s, hs, rfl⟩
  · intro x s hs hxa
    simp only [PSt.delSet]
    rw [if_neg hxa]
    exact ⟨s, hs⟩

theorem delSet_sound {st : PSt} (h : Sound st) (a : Nat) :
    Sound (st.delSet a) ↔ Unheld st a := by
  constructor
  · intro g d pd hd ha
    obtain ⟨s, hs⟩ := g.sets d pd hd a ha
    simp [PSt.delSet] at hs
  · intro hu
    refine ⟨?_, h.freshB, ?_, h.subs⟩
    · intro x hx
      simp only [PSt.delSet]
      by_cases hxa : x = a
      · rw [if_pos hxa]
      · rw [if_neg hxa]; exact h.freshS x hx
    · intro d pd hd x hx
      simp only [PSt.delSet]
      rw [if_neg]
      · exact h.sets d pd hd x hx
      · rintro rfl
        exact hu d pd hd hx

theorem unheld_putSet {st : PSt} (t a : Nat) (s : PSet) : Unheld (st.putSet t s) a ↔ Unheld st a := Iff.rfl

/-! ### destruction -/

/-- Objects were only removed. -/
structure Cut (st st' : PSt) : Prop where
  next : st'.next = st.next
  set : ∀ a s, st'.set a = some s → st.set a = some s
  blk : ∀ b p, st'.blk b = some p → st.blk b = some p

theorem Cut.refl (st : PSt) : Cut st st := ⟨rfl, fun _ _ h => h, fun _ _ h => h⟩

theorem Cut.trans {a b c : PSt} (h : Cut a b) (g : Cut b c) : Cut a c :=
  ⟨g.next.trans h.next, fun x s e => h.set x s (g.set x s e), fun x s e => h.blk x s (g.blk x s e)⟩

theorem cut_delSet (st : PSt) (a : Nat) : Cut st (st.delSet a) := by
  refine ⟨rfl, ?_, fun _ _ h => h⟩
  intro x s hs
  simp only [PSt.delSet] at hs
  by_cases hxa : x = a
  · rw [if_pos hxa] at hs; cases hs
  · rw [if_neg hxa] at hs; exact hs

theorem cut_delBlk (st : PSt) (a : Nat) : Cut st (st.delBlk a) := by
  refine ⟨rfl, fun _ _ h => h, ?_⟩
  intro x s hs
  simp only [PSt.delBlk] at hs
  by_cases hxa : x = a
  · rw [if_pos hxa] at hs; cases hs
  · rw [if_neg hxa] at hs; exact hs

theorem Cut.goneS {a b : PSt} (h : Cut a b) {x : Nat} (g : a.set x = none) : b.set x = none := by
  cases e : b.set x with
  | none => rfl
  | some s => rw [h.set x s e] at g; cases g

theorem Cut.goneB {a b : PSt} (h : Cut a b) {x : Nat} (g : a.blk x = none) : b.blk x = none := by
  cases e : b.blk x with
  | none => rfl
  | some s => rw [h.blk x s e] at g; cases g

theorem delSets_ok : ∀ (l : List Nat) (st st' : PSt), delSets l st = .ok st' →
    Cut st st' ∧ (∀ a ∈ l, st'.set a = none) ∧ (∀ x, x ∉ l → st'.set x = st.set x) ∧ st'.blk = st.blk := by
  intro l
  induction l with
  | nil =>
    intro st st' h
    simp only [delSets, R.ok.injEq] at h
    subst h
    exact ⟨Cut.refl _, by simp, fun _ _ => rfl, rfl⟩
  | cons a l ih =>
    intro st st' h
    simp only [delSets] at h
    obtain ⟨s, -, h⟩ := bind_ok h
    obtain ⟨h1, h2, h3, h4⟩ := ih _ _ h
    refine ⟨(cut_delSet st a).trans h1, ?_, ?_, h4⟩
    · intro x hx
      rcases List.mem_cons.1 hx with rfl | hx
      · apply h1.goneS
        simp [PSt.delSet]
      · exact h2 x hx
    · intro x hx
      simp only [List.mem_cons, not_or] at hx
      rw [h3 x hx.2]
      simp only [PSt.delSet]
      rw [if_neg hx.1]

/-- What the destructor of one block does, seen from a state with possibly more objects. -/
def DestroySpec (st0 st : PSt) (l : List Nat) (st' : PSt) : Prop :=
  Cut st st' ∧ (∀ b ∈ l, ∀ x, ReachB st0 b x → st'.blk x = none) ∧
  (∀ b ∈ l, ∀ a, ReachS st0 b a → st'.set a = none) ∧
  (∀ x, (∀ b ∈ l, ¬ ReachB st0 b x) → st'.blk x = st.blk x) ∧
  (∀ a, (∀ b ∈ l, ¬ ReachS st0 b a) → st'.set a = st.set a)

theorem delSubs_ok (dl : PSt → Nat → R PSt) (st0 : PSt)
    (hdl : ∀ st b st', Cut st0 st → dl st b = .ok st' → DestroySpec st0 st [b] st') :
    ∀ (l : List Nat) (st st' : PSt), Cut st0 st → delSubs dl l st = .ok st' → DestroySpec st0 st l st' := by
  intro l
  induction l with
  | nil =>
    intro st st' _ h
    simp only [delSubs, R.ok.injEq] at h
    subst h
    exact ⟨Cut.refl _, by simp, by simp, fun _ _ => rfl, fun _ _ => rfl⟩
  | cons c l ih =>
    intro st st' hcut h
    simp only [delSubs] at h
    obtain ⟨st1, h1, h⟩ := bind_ok h
    obtain ⟨a1, a2, a3, a4, a5⟩ := hdl st c st1 hcut h1
    obtain ⟨b1, b2, b3, b4, b5⟩ := ih st1 st' (hcut.trans a1) h
    refine ⟨a1.trans b1, ?_, ?_, ?_, ?_⟩
    · intro b hb x hx
      rcases List.mem_cons.1 hb with rfl | hb
      · exact b1.goneB (a2 b (by simp) x hx)
      · exact b2 b hb x hx
    · intro b hb x hx
      rcases List.mem_cons.1 hb with rfl | hb
      · exact b1.goneS (a3 b (by simp) x hx)
      · exact b3 b hb x hx
    · intro x hx
      rw [b4 x (fun b hb => hx b (by simp [hb])), a4 x (fun b hb => by
        rw [List.mem_singleton] at hb; exact hx b (by simp [hb]))]
    · intro x hx
      rw [b5 x (fun b hb => hx b (by simp [hb])), a5 x (fun b hb => by
        rw [List.mem_singleton] at hb; exact hx b (by simp [hb]))]

theorem destroy_ok (st0 : PSt) : ∀ (f : Nat) (st : PSt) (b : Nat) (st' : PSt), Cut st0 st →
    destroy f st b = .ok st' → DestroySpec st0 st [b] st' := by
  intro f
  induction f with
  | zero => intro st b st' _ h; cases h
  | succ f ih =>
    intro st b st' hcut h
    simp only [destroy] at h
    obtain ⟨pb, hb, h⟩ := bind_ok h
    obtain ⟨st1, h1, h⟩ := bind_ok h
    obtain ⟨st2, h2, h⟩ := bind_ok h
    obtain ⟨pb2, hb2, h⟩ := bind_ok h
    rw [getBlk_ok] at hb hb2
    simp only [R.ok.injEq] at h
    subst h
    obtain ⟨a1, a2, a3, a4⟩ := delSets_ok _ _ _ h1
    obtain ⟨b1, b2, b3, b4, b5⟩ := delSubs_ok (destroy f) st0 ih pb.subs st1 st2 (hcut.trans a1) h2
    have hb0 := hcut.blk b pb hb
    refine ⟨(a1.trans b1).trans (cut_delBlk st2 b), ?_, ?_, ?_, ?_⟩
    · intro c hc x hx
      rw [List.mem_singleton] at hc
      subst hc
      cases hx with
      | self => simp [PSt.delBlk]
      | sub _ d _ pb' hp hd hr =>
        rw [hb0] at hp; cases hp
        exact (cut_delBlk st2 c).goneB (b2 d hd x hr)
    · rintro c hc x ⟨e, pe, hr, he, hx⟩
      rw [List.mem_singleton] at hc
      subst hc
      show st2.set x = none
      cases hr with
      | self =>
        rw [hb0] at he; cases he
        exact b1.goneS (a2 x hx)
      | sub _ d _ pb' hp hd hr =>
        rw [hb0] at hp; cases hp
        exact b3 d hd x ⟨e, pe, hr, he, hx⟩
    · intro x hx
      have hx := hx b (by simp)
      have hne : x ≠ b := by rintro rfl; exact hx (.self _)
      simp only [PSt.delBlk]
      rw [if_neg hne, b4 x (fun c hc hr => hx (.sub b c x pb hb0 hc hr)), a4]
    · intro x hx
      have hx := hx b (by simp)
      show st2.set x = st.set x
      rw [b5 x (fun c hc hr => by
        obtain ⟨e, pe, h1, h2, h3⟩ := hr
        exact hx ⟨e, pe, .sub b c e pb hb0 hc h1, h2, h3⟩), a3 x (fun hm => hx ⟨b, pb, .self _, hb0, hm⟩)]

end Config.Ptr

/-! ### C109 -/

/-- The pointers given to the call lead to live objects. -/
def ArgsLive (st : PSt) : Op → Prop
  | .newSet _ _ => True
  | .newBlk _ _ _ _ => True
  | .get b _ => ∃ p, st.blk b = some p
  | .getBlk b _ _ => ∃ p, st.blk b = some p
  | .addSet b a => (∃ p, st.blk b = some p) ∧ ∃ s, st.set a = some s
  | .addSub b c => (∃ p, st.blk b = some p) ∧ ∃ p, st.blk c = some p
  | .addNew b _ _ _ => ∃ p, st.blk b = some p
  | .copy _ b => ∃ p, st.blk b = some p
  | .merge _ _ cb b => (∃ p, st.blk cb = some p) ∧ ∃ p, st.blk b = some p
  | .destroy _ b => ∃ p, st.blk b = some p

/-- The two precautions a caller has to take: a setting given to a block that has one of that name
must not belong to any block, and what is destroyed with a block must not belong to a block that
remains. -/
def CarefulCall (st : PSt) : Op → Prop
  | .addSet b a => Replaces st b a → Unheld st a
  | .destroy _ b => ∀ d pd, st.blk d = some pd → ¬ ReachB st b d →
      (∀ a ∈ pd.sets, ¬ ReachS st b a) ∧ ∀ c ∈ pd.subs, ¬ ReachB st b c
  | _ => True

/-- Settings a call releases. -/
def LostS (st : PSt) : Op → Nat → Prop
  | .addSet b a, x => Replaces st b a ∧ x = a
  | .destroy _ b, x => ReachS st b x
  | _, _ => False

/-- Blocks a call releases. -/
def LostB (st : PSt) : Op → Nat → Prop
  | .destroy _ b, x => ReachB st b x
  | _, _ => False

theorem Config.Ptr.safe_ok {α : Type} {x : R α} {P : α → Prop} {a : α} (h : Safe x P) (e : x = .ok a) : P a := by
  rw [e] at h; exact h

/-- One call: it is undefined only if it destroys; it keeps the names, types and order of everything
and releases nothing but the setting it replaces or the tree it destroys. -/
theorem Config.Ptr.step_evo {st : PSt} (h : Sound st) (op : Op) (ha : ArgsLive st op) :
    ((∀ d b, op ≠ .destroy d b) → step st op ≠ .ub) ∧
    ∀ st', step st op = .ok st' →
      Evo (LostS st op) (LostB st op) st st' ∧ (CarefulCall st op → Sound st') := by
  have key : ∀ op : Op, (∀ x, ¬ LostS st op x) → (∀ x, ¬ LostB st op x) →
      Safe (step st op) (fun r => Sound r ∧ Grow st r) →
      ((∀ d b, op ≠ .destroy d b) → step st op ≠ .ub) ∧ ∀ st', step st op = .ok st' →
      Evo (LostS st op) (LostB st op) st st' ∧ (CarefulCall st op → Sound st') := by
    intro op _ _ hs
    refine ⟨fun _ e => by rw [e] at hs; exact hs, fun st' e => ?_⟩
    obtain ⟨k1, k2⟩ := safe_ok hs e
    exact ⟨k2.mono (fun _ k => k.elim) (fun _ k => k.elim), fun _ => k1⟩
  cases op with
  | newSet n vs =>
    obtain ⟨h1, h2, -⟩ := newSet_sound h n vs
    exact key _ (fun _ => id) (fun _ => id) ⟨h1, h2⟩
  | newBlk t n sec p =>
    obtain ⟨h1, h2, -⟩ := newBlk_sound h ⟨t, n, sec, p, [], []⟩ (by simp) (by simp)
    exact key _ (fun _ => id) (fun _ => id) ⟨h1, h2⟩
  | get b n =>
    obtain ⟨pb, hb⟩ := ha
    exact key _ (fun _ => id) (fun _ => id) (Safe_bind (getSetting_safe h hb n) (fun _ k => k))
  | getBlk b t n =>
    obtain ⟨pb, hb⟩ := ha
    refine key _ (fun _ => id) (fun _ => id) ?_
    refine Safe_bind (P := fun _ => True) ?_ (fun _ _ => ⟨h, Evo.refl _ _ _⟩)
    unfold getConfigBlock
    refine Safe_bind (getBlk_safe hb) ?_
    rintro _ rfl
    exact Safe_mono (findBlk_safe t n _ (h.subs b _ hb)) (fun _ _ => trivial)
  | addSub b c =>
    obtain ⟨⟨pb, hb⟩, pc, hc⟩ := ha
    exact key _ (fun _ => id) (fun _ => id) (Safe_bind (addSubBlock_safe h hb hc) (fun _ k => ⟨k.1, k.2.1⟩))
  | addNew b t n sec =>
    obtain ⟨pb, hb⟩ := ha
    exact key _ (fun _ => id) (fun _ => id)
      (Safe_bind (addNewBlock_safe h hb t n sec) (fun _ k => ⟨k.1, k.2.1⟩))
  | copy d b =>
    exact key _ (fun _ => id) (fun _ => id) (Safe_bind (copyBlk_safe d st b h ha) (fun _ k => ⟨k.1, k.2.1⟩))
  | merge d an cb b =>
    exact key _ (fun _ => id) (fun _ => id) (merge_safe an d st cb b h ha.1 ha.2)
  | addSet b a =>
    obtain ⟨⟨pb, hb⟩, s, hs⟩ := ha
    by_cases hr : Replaces st b a
    · obtain ⟨t, old, h1, h2, h3, e⟩ := addSetting_old h hb hs hr
      have hp := putSet_sound h h2 (s' := { old with vals := s.vals, touched := true }) rfl
      refine ⟨fun _ => ?_, fun st' e' => ?_⟩
      · simp only [step, e, R.bind]
        exact fun k => by cases k
      · simp only [step, e, R.bind, R.ok.injEq] at e'
        subst e'
        refine ⟨?_, ?_⟩
        · refine (hp.2.mono (fun _ k => k.elim) (fun _ k => k.elim)).trans
            ((delSet_evo a).mono ?_ (fun _ k => k.elim))
          intro x hx
          exact ⟨hr, hx⟩
        · intro hc
          exact (delSet_sound hp.1 a).2 (hc hr)
    · have e := addSetting_new h hb hs hr
      have hp := putBlk_sound h hb (pb' := { pb with sets := pb.sets ++ [a] })
        ⟨rfl, rfl, rfl, rfl, List.prefix_append _ _, List.prefix_refl _⟩ (by
        intro x hx
        rcases List.mem_append.1 hx with hx | hx
        · exact h.sets b pb hb x hx
        · rw [List.mem_singleton] at hx; exact ⟨s, hx ▸ hs⟩) (h.subs b pb hb)
      refine ⟨fun _ => ?_, fun st' e' => ?_⟩
      · simp only [step, e, R.bind]
        exact fun k => by cases k
      · simp only [step, e, R.bind, R.ok.injEq] at e'
        subst e'
        exact ⟨hp.2.mono (fun _ k => k.elim) (fun _ k => k.elim), fun _ => hp.1⟩
  | destroy d b =>
    refine ⟨fun k => absurd rfl (k d b), fun st' e => ?_⟩
    obtain ⟨c1, c2, c3, c4, c5⟩ := destroy_ok st d st b st' (Cut.refl _) e
    refine ⟨⟨Nat.le_of_eq c1.next.symm, ?_, ?_, ?_, ?_⟩, ?_⟩
    · intro x _ px hx
      exact ⟨px, c1.blk x px hx, Later.refl _⟩
    · intro x _ s hx
      exact ⟨s, c1.set x s hx, rfl⟩
    · intro x s hx hl
      exact ⟨s, (c5 x (fun c hc hr => hl (by rw [List.mem_singleton] at hc; subst hc; exact hr))).trans hx⟩
    · intro x s hx hl
      exact ⟨s, (c4 x (fun c hc hr => hl (by rw [List.mem_singleton] at hc; subst hc; exact hr))).trans hx⟩
    · intro hc
      have alive : ∀ x px, st'.blk x = some px → st.blk x = some px ∧ ¬ ReachB st b x := by
        intro x px hx
        refine ⟨c1.blk x px hx, fun hr => ?_⟩
        rw [c2 b (by simp) x hr] at hx
        cases hx
      refine ⟨?_, ?_, ?_, ?_⟩
      · intro x hx
        exact c1.goneS (h.freshS x (by rw [← c1.next]; exact hx))
      · intro x hx
        exact c1.goneB (h.freshB x (by rw [← c1.next]; exact hx))
      · intro x px hx a ha'
        obtain ⟨k1, k2⟩ := alive x px hx
        obtain ⟨s, hs⟩ := h.sets x px k1 a ha'
        have := (hc x px k1 k2).1 a ha'
        exact ⟨s, (c5 a (fun c hc' hr => this (by rw [List.mem_singleton] at hc'; subst hc'; exact hr))).trans hs⟩
      · intro x px hx c hcm
        obtain ⟨k1, k2⟩ := alive x px hx
        obtain ⟨s, hs⟩ := h.subs x px k1 c hcm
        have := (hc x px k1 k2).2 c hcm
        exact ⟨s, (c4 c (fun c' hc' hr => this (by rw [List.mem_singleton] at hc'; subst hc'; exact hr))).trans hs⟩

/-- A history of calls with live pointers that all return, each taking the precautions. -/
inductive CarefulHistory : PSt → PSt → Prop
  | nil (st : PSt) : CarefulHistory st st
  | snoc (st st1 st2 : PSt) (op : Op) : CarefulHistory st st1 → ArgsLive st1 op → CarefulCall st1 op →
      step st1 op = .ok st2 → CarefulHistory st st2

theorem Config.Ptr.run_evo {st st' : PSt} (h : Sound st) (hr : CarefulHistory st st') :
    Sound st' ∧ Evo (fun _ => True) (fun _ => True) st st' := by
  induction hr with
  | nil => exact ⟨h, Evo.refl _ _ _⟩
  | snoc st1 st2 op _ ha hc e ih =>
    obtain ⟨k1, k2⟩ := ih
    obtain ⟨m1, m2⟩ := (step_evo k1 op ha).2 _ e
    exact ⟨m2 hc, k2.trans (m1.mono (fun _ _ => trivial) (fun _ _ => trivial))⟩

theorem Config.Ptr.findSet_prefix {st st' : PSt} {n : Str} {a : Nat} : ∀ (l : List Nat) (m : List Nat),
    (∀ x ∈ l, ∃ s s', st.set x = some s ∧ st'.set x = some s' ∧ s'.name = s.name) →
    findSet st n l = .ok (some a) → findSet st' n (l ++ m) = .ok (some a) := by
  intro l
  induction l with
  | nil => intro m _ h; cases h
  | cons x l ih =>
    intro m hl h
    obtain ⟨s, s', e, e', hn⟩ := hl x (by simp)
    simp only [List.cons_append, findSet] at h ⊢
    rw [getSet_ok.2 e] at h
    rw [getSet_ok.2 e']
    simp only [R.bind] at h ⊢
    rw [hn]
    by_cases hc : s.name = n
    · rw [if_pos hc] at h ⊢; exact h
    · rw [if_neg hc] at h ⊢
      exact ih m (fun y hy => hl y (by simp [hy])) h

theorem Config.Ptr.findBlk_prefix {st st' : PSt} {t : Nat} {n : Str} {a : Nat} : ∀ (l : List Nat) (m : List Nat),
    (∀ x ∈ l, ∃ s s', st.blk x = some s ∧ st'.blk x = some s' ∧ s'.ty = s.ty ∧ s'.name = s.name) →
    findBlk st t n l = .ok (some a) → findBlk st' t n (l ++ m) = .ok (some a) := by
  intro l
  induction l with
  | nil => intro m _ h; cases h
  | cons x l ih =>
    intro m hl h
    obtain ⟨s, s', e, e', ht, hn⟩ := hl x (by simp)
    simp only [List.cons_append, findBlk] at h ⊢
    rw [getBlk_ok.2 e] at h
    rw [getBlk_ok.2 e']
    simp only [R.bind] at h ⊢
    rw [hn, ht]
    by_cases hc : s.ty = t ∧ s.name = n
    · rw [if_pos hc] at h ⊢; exact h
    · rw [if_neg hc] at h ⊢
      exact ih m (fun y hy => hl y (by simp [hy])) h

/-- C109: a pointer obtained from `GetSetting` stays valid as long as its block exists: after any careful
history of definitions, loads, merges, copies and destructions the block still gives the very same
setting object for the name, and that object is live and has the name. -/
theorem C109_settings_partial (st st' : PSt) (h : Sound st) (hr : CarefulHistory st st') (b a : Nat) (n : Str)
    (s1 : PSt) (hg : getSetting st b n = .ok (some a, s1)) (pb : PBlk) (hb : st'.blk b = some pb) :
    (∃ s2, getSetting st' b n = .ok (some a, s2)) ∧ ∃ s, st'.set a = some s ∧ s.name = n := by
  obtain ⟨k1, k2⟩ := run_evo h hr
  unfold getSetting at hg
  obtain ⟨p0, hp0, hg⟩ := bind_ok hg
  obtain ⟨r, hf, hg⟩ := bind_ok hg
  rw [getBlk_ok] at hp0
  cases r with
  | none => cases hg
  | some x =>
    obtain ⟨s0, hs0, hg⟩ := bind_ok hg
    simp only [R.ok.injEq, Prod.mk.injEq, Option.some.injEq] at hg
    obtain ⟨rfl, -⟩ := hg
    have hbn : b < st.next := by
      apply Nat.lt_of_not_le
      intro hle
      rw [h.freshB b hle] at hp0
      cases hp0
    obtain ⟨p0', e0, hl⟩ := k2.blk b hbn pb hb
    rw [hp0] at e0; cases e0
    obtain ⟨m, hm⟩ := hl.sets
    have hall : ∀ x ∈ p0.sets, ∃ s s', st.set x = some s ∧ st'.set x = some s' ∧ s'.name = s.name := by
      intro y hy
      obtain ⟨s', hs'⟩ := k1.sets b pb hb y (by rw [← hm]; simp [hy])
      obtain ⟨s, hs⟩ := h.sets b p0 hp0 y hy
      have hyn : y < st.next := by
        apply Nat.lt_of_not_le
        intro hle
        rw [h.freshS y hle] at hs
        cases hs
      obtain ⟨s2, e2, hn⟩ := k2.set y hyn s' hs'
      exact ⟨s2, s', e2, hs', hn⟩
    have hf' := findSet_prefix p0.sets m hall hf
    rw [hm] at hf'
    have hmem := safe_ok (findSet_safe n pb.sets (k1.sets b pb hb)) hf'
    obtain ⟨-, s, hs, hn⟩ := hmem
    refine ⟨⟨st'.putSet x { s with touched := true }, ?_⟩, s, hs, hn⟩
    unfold getSetting
    rw [getBlk_ok.2 hb]
    simp only [R.bind, hf']
    rw [getSet_ok.2 hs]

/-- C109, the same for pointers to blocks from `GetConfigBlock`. -/
theorem C109_blocks_partial (st st' : PSt) (h : Sound st) (hr : CarefulHistory st st') (b c t : Nat) (n : Str)
    (hg : getConfigBlock st b t n = .ok (some c)) (pb : PBlk) (hb : st'.blk b = some pb) :
    getConfigBlock st' b t n = .ok (some c) ∧ ∃ p, st'.blk c = some p ∧ p.ty = t ∧ p.name = n := by
  obtain ⟨k1, k2⟩ := run_evo h hr
  unfold getConfigBlock at hg
  obtain ⟨p0, hp0, hf⟩ := bind_ok hg
  rw [getBlk_ok] at hp0
  have hbn : ∀ y p, st.blk y = some p → y < st.next := by
    intro y p hy
    apply Nat.lt_of_not_le
    intro hle
    rw [h.freshB y hle] at hy
    cases hy
  obtain ⟨p0', e0, hl⟩ := k2.blk b (hbn b p0 hp0) pb hb
  rw [hp0] at e0; cases e0
  obtain ⟨m, hm⟩ := hl.subs
  have hall : ∀ x ∈ p0.subs, ∃ s s', st.blk x = some s ∧ st'.blk x = some s' ∧ s'.ty = s.ty ∧ s'.name = s.name := by
    intro y hy
    obtain ⟨s', hs'⟩ := k1.subs b pb hb y (by rw [← hm]; simp [hy])
    obtain ⟨s, hs⟩ := h.subs b p0 hp0 y hy
    obtain ⟨s2, e2, hn⟩ := k2.blk y (hbn y s hs) s' hs'
    exact ⟨s2, s', e2, hs', hn.ty, hn.name⟩
  have hf' := findBlk_prefix p0.subs m hall hf
  rw [hm] at hf'
  obtain ⟨-, s, hs, hn⟩ := safe_ok (findBlk_safe t n pb.subs (k1.subs b pb hb)) hf'
  refine ⟨?_, s, hs, hn⟩
  unfold getConfigBlock
  rw [getBlk_ok.2 hb]
  exact hf'

/-- C109, no call but a destruction is undefined as long as the pointers given to it are valid, whatever
the depth of the blocks; and after a careful call all stored pointers are valid again. -/
theorem C109_calls_partial (st : PSt) (h : Sound st) (op : Op) (ha : ArgsLive st op) :
    ((∀ d b, op ≠ .destroy d b) → step st op ≠ .ub) ∧
    ∀ st', step st op = .ok st' → CarefulCall st op → Sound st' :=
  ⟨(step_evo h op ha).1, fun st' e => ((step_evo h op ha).2 st' e).2⟩

/-- C109: no call releases an object but `AddSetting`, which releases exactly the setting it was given
if the block has one of that name, and `delete`, which releases the block, what is below it and their
settings. -/
theorem C109_released (st st' : PSt) (h : Sound st) (op : Op) (ha : ArgsLive st op)
    (e : step st op = .ok st') :
    (∀ a s, st.set a = some s → (st'.set a = none ↔ LostS st op a)) ∧
    (∀ b p, st.blk b = some p → (st'.blk b = none ↔ LostB st op b)) := by
  obtain ⟨k, -⟩ := (step_evo h op ha).2 st' e
  constructor
  · intro a s hs
    constructor
    · intro hn
      refine Classical.byContradiction fun hl => ?_
      obtain ⟨s', hs'⟩ := k.liveS a s hs hl
      rw [hn] at hs'; cases hs'
    · intro hl
      cases op with
      | addSet b x =>
        obtain ⟨hr, rfl⟩ := hl
        obtain ⟨⟨pb, hb⟩, s, hs⟩ := ha
        obtain ⟨t, old, h1, h2, h3, e1⟩ := addSetting_old h hb hs hr
        simp only [step, e1, R.bind, R.ok.injEq] at e
        subst e
        simp [PSt.delSet]
      | destroy d b =>
        obtain ⟨c1, c2, c3, c4, c5⟩ := destroy_ok st d st b st' (Cut.refl _) e
        exact c3 b (by simp) a hl
      | _ => exact hl.elim
  · intro b p hb
    constructor
    · intro hn
      refine Classical.byContradiction fun hl => ?_
      obtain ⟨s', hs'⟩ := k.liveB b p hb hl
      rw [hn] at hs'; cases hs'
    · intro hl
      cases op with
      | destroy d c =>
        obtain ⟨c1, c2, c3, c4, c5⟩ := destroy_ok st d st c st' (Cut.refl _) e
        exact c2 c (by simp) b hl
      | _ => exact hl.elim

/-- C109: the values seen through an earlier pointer are the current ones: defining the setting again
stores the new values in the very object the earlier pointer leads to. -/
theorem C109_shows (st : PSt) (h : Sound st) (b a t : Nat) (s : PSet) (s1 : PSt)
    (ha : st.set a = some s) (hg : getSetting st b s.name = .ok (some t, s1)) (hne : a ≠ t) :
    ∃ st', addSetting st b a = .ok (t, st') ∧ ∃ s', st'.set t = some s' ∧ s'.vals = s.vals ∧
      s'.name = s.name ∧ st'.set a = none := by
  unfold getSetting at hg
  obtain ⟨pb, hb, hg⟩ := bind_ok hg
  obtain ⟨r, hf, hg⟩ := bind_ok hg
  cases r with
  | none => cases hg
  | some x =>
    obtain ⟨s0, hs0, hg⟩ := bind_ok hg
    simp only [R.ok.injEq, Prod.mk.injEq, Option.some.injEq] at hg
    obtain ⟨rfl, -⟩ := hg
    obtain ⟨-, s2, hs2, hn⟩ := safe_ok (findSet_safe s.name pb.sets (h.sets b pb (getBlk_ok.1 hb))) hf
    rw [getSet_ok, hs2] at hs0
    cases hs0
    refine ⟨(st.putSet x { s0 with vals := s.vals, touched := true }).delSet a, ?_,
      { s0 with vals := s.vals, touched := true }, ?_, rfl, hn, ?_⟩
    · unfold addSetting
      rw [getSet_ok.2 ha, hb]
      simp only [R.bind, hf]
      rw [getSet_ok.2 hs2]
    · simp only [PSt.delSet, PSt.putSet]
      rw [if_neg (Ne.symm hne)]
      simp
    · simp [PSt.delSet]

/-- C109, the precaution for `AddSetting` is needed, exactly: after giving a setting to a block that has
one of the name, all stored pointers are valid iff no block had a pointer to the setting. -/
theorem C109_add_iff (st st' : PSt) (h : Sound st) (b a r : Nat) (hr : Replaces st b a)
    (e : addSetting st b a = .ok (r, st')) : Sound st' ↔ Unheld st a := by
  obtain ⟨pb, s, hb, ha, -⟩ := id hr
  obtain ⟨t, old, h1, h2, h3, e1⟩ := addSetting_old h hb ha hr
  rw [e1] at e
  simp only [R.ok.injEq, Prod.mk.injEq] at e
  obtain ⟨-, rfl⟩ := e
  have hp := putSet_sound h h2 (s' := { old with vals := s.vals, touched := true }) rfl
  exact delSet_sound hp.1 a

/-- C109 as stated is false of the code: giving a block a setting it already has destroys that setting
and leaves the block with the pointer; the pointer returned leads nowhere, and looking the name up again is
undefined. -/
theorem C109_refuted (st : PSt) (h : Sound st) (b a : Nat) (n : Str) (s1 : PSt)
    (hg : getSetting st b n = .ok (some a, s1)) :
    ∃ st', addSetting st b a = .ok (a, st') ∧ st'.set a = none ∧ getSetting st' b n = .ub := by
  unfold getSetting at hg
  obtain ⟨pb, hb, hg⟩ := bind_ok hg
  obtain ⟨r, hf, hg⟩ := bind_ok hg
  cases r with
  | none => cases hg
  | some x =>
    obtain ⟨s0, hs0, hg⟩ := bind_ok hg
    simp only [R.ok.injEq, Prod.mk.injEq, Option.some.injEq] at hg
    obtain ⟨rfl, -⟩ := hg
    obtain ⟨hx, s2, hs2, hn⟩ := safe_ok (findSet_safe n pb.sets (h.sets b pb (getBlk_ok.1 hb))) hf
    rw [getSet_ok, hs2] at hs0
    cases hs0
    refine ⟨(st.putSet x { s0 with vals := s0.vals, touched := true }).delSet x, ?_, by simp [PSt.delSet], ?_⟩
    · unfold addSetting
      rw [getSet_ok.2 hs2, hb]
      subst hn
      simp only [R.bind, hf]
      rw [getSet_ok.2 hs2]
    · unfold getSetting
      rw [getBlk_ok] at hb
      have hb' : ((st.putSet x { s0 with vals := s0.vals, touched := true }).delSet x).getBlk b = .ok pb :=
        getBlk_ok.2 hb
      rw [hb']
      simp only [R.bind]
      have key : ∀ l, findSet st n l = .ok (some x) →
          findSet ((st.putSet x { s0 with vals := s0.vals, touched := true }).delSet x) n l = .ub := by
        intro l
        induction l with
        | nil => intro h; cases h
        | cons y l ih =>
          intro hl
          simp only [findSet] at hl ⊢
          by_cases hy : y = x
          · subst hy
            have : ((st.putSet y { s0 with vals := s0.vals, touched := true }).delSet y).getSet y = .ub := by
              simp [PSt.getSet, PSt.delSet]
            rw [this]; rfl
          · have : ((st.putSet x { s0 with vals := s0.vals, touched := true }).delSet x).getSet y = st.getSet y := by
              simp [PSt.getSet, PSt.delSet, PSt.putSet, hy]
            rw [this]
            obtain ⟨sy, hsy, hl⟩ := bind_ok hl
            rw [hsy]
            simp only [R.bind]
            by_cases hc : sy.name = n
            · rw [if_pos hc] at hl
              simp only [R.ok.injEq, Option.some.injEq] at hl
              exact absurd hl hy
            · rw [if_neg hc] at hl ⊢
              exact ih hl
      rw [key _ hf]

/-- C109, the precaution for `delete` is needed, exactly: after destroying a block all stored pointers are
valid iff no remaining block has a pointer to anything destroyed. -/
theorem C109_destroy_iff (st st' : PSt) (h : Sound st) (d b : Nat) (p : PBlk) (hb : st.blk b = some p)
    (e : destroy d st b = .ok st') : Sound st' ↔ CarefulCall st (.destroy d b) := by
  constructor
  · intro g x px hx hr
    obtain ⟨c1, c2, c3, c4, c5⟩ := destroy_ok st d st b st' (Cut.refl _) e
    have hx' : st'.blk x = some px := by
      rw [c4 x (fun c hc => by rw [List.mem_singleton] at hc; subst hc; exact hr)]
      exact hx
    constructor
    · intro a ha hra
      obtain ⟨s, hs⟩ := g.sets x px hx' a ha
      rw [c3 b (by simp) a hra] at hs
      cases hs
    · intro c hc hrc
      obtain ⟨s, hs⟩ := g.subs x px hx' c hc
      rw [c2 b (by simp) c hrc] at hs
      cases hs
  · exact ((step_evo h (.destroy d b) ⟨p, hb⟩).2 st' e).2

/-- Nothing made yet. -/
def Config.Ptr.emptySt : PSt := ⟨fun _ => none, fun _ => none, 0⟩

/-- The empty state is sound, so everything made from it by careful calls is. -/
theorem Config.Ptr.emptySt_sound : Sound emptySt :=
  ⟨fun _ _ => rfl, fun _ _ => rfl, fun _ _ h => (by cases h), fun _ _ h => (by cases h)⟩

/-- A root block (0) with setting `x` (1); the setting is then defined again with other values (2). -/
def Config.Ptr.exSt : PSt :=
  (newSet ((newSet (newBlk emptySt ⟨0, ['r'], [], none, [], []⟩).2 ['x'] [['1']]).2.putBlk 0
    ⟨0, ['r'], [], none, [1], []⟩) ['x'] [['2']]).2

theorem Config.Ptr.exSt_run : CarefulHistory emptySt exSt := by
  refine .snoc _ ((newSet (newBlk emptySt ⟨0, ['r'], [], none, [], []⟩).2 ['x'] [['1']]).2.putBlk 0
    ⟨0, ['r'], [], none, [1], []⟩) _ (.newSet ['x'] [['2']]) ?_ trivial trivial rfl
  refine .snoc _ (newSet (newBlk emptySt ⟨0, ['r'], [], none, [], []⟩).2 ['x'] [['1']]).2 _ (.addSet 0 1) ?_
    ⟨⟨_, rfl⟩, _, rfl⟩ ?_ rfl
  · refine .snoc _ (newBlk emptySt ⟨0, ['r'], [], none, [], []⟩).2 _ (.newSet ['x'] [['1']]) ?_ trivial trivial rfl
    exact .snoc _ emptySt _ (.newBlk 0 ['r'] [] none) (.nil _) trivial trivial rfl
  · rintro ⟨pb, s, hb, -, x, hx, -⟩
    have : (⟨0, ['r'], [], none, [], []⟩ : PBlk) = pb := by injection hb
    subst this
    cases hx

/-- The situation of `C109_shows` is reachable: the block gives setting object 1 for `x`, and object 2, of
the same name, belongs to no block. -/
example : (∃ s1, getSetting exSt 0 ['x'] = .ok (some 1, s1)) ∧
    exSt.set 2 = some ⟨['x'], [['2']], false⟩ ∧ Unheld exSt 2 ∧ Replaces exSt 0 2 ∧ Sound exSt := by
  refine ⟨⟨_, rfl⟩, rfl, ?_, ?_, (run_evo emptySt_sound exSt_run).1⟩
  · intro d pd hd
    have h0 : d = 0 := by
      apply Classical.byContradiction
      intro hd0
      simp [exSt, newSet, newBlk, PSt.putBlk, PSt.putSet, emptySt, hd0] at hd
    subst h0
    have : (⟨0, ['r'], [], none, [1], []⟩ : PBlk) = pd := by injection hd
    subst this
    decide
  · exact ⟨_, _, rfl, rfl, 1, by decide, _, rfl, rfl⟩

/-- And so is that of `C109_refuted`: giving the block its own setting is undefined at the next lookup. -/
example : ∃ st', addSetting exSt 0 1 = .ok (1, st') ∧ st'.set 1 = none ∧ getSetting st' 0 ['x'] = .ub :=
  C109_refuted exSt (run_evo emptySt_sound exSt_run).1 0 1 ['x'] _ rfl

end Softlib
