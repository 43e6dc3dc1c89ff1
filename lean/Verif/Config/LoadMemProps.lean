/-
C103: objects made and released by loading configuration scripts.
-/
import Verif.Config.LoadMemModel
import Verif.Config.InterpLemmas
import Verif.Config.TreeLemmas
import Verif.Config.DocLemmas
import Verif.Config.InterpProps

namespace Softlib.Config

def StmtResM.forget : StmtResM → StmtRes
  | .ub => .ub
  | .ok st _ s => .ok st s
  | .exn st _ s => .exn st s

def IResM.forget : IResM → IRes
  | .ub => .ub
  | .thrown _ _ _ => .thrown
  | .ok r e _ => .ok r e

theorem thenExpectM_forget (ty : TokTy) (st : ISt) (m : Mem) (s : List Tok) (k : List Tok → StmtResM)
    (k' : List Tok → StmtRes) (h : ∀ s', (k s').forget = k' s') :
    (thenExpectM ty st m s k).forget = thenExpect ty st s k' := by
  unfold thenExpectM thenExpect
  split <;> simp_all [StmtResM.forget]

theorem stmtNameM_forget (st : ISt) (m : Mem) (s : List Tok) :
    (stmtNameM st m s).forget = stmtName st s := by
  unfold stmtNameM stmtName
  apply thenExpectM_forget; intro s1
  apply thenExpectM_forget; intro s2
  cases moreValues s2 with
  | none => rfl
  | some x => dsimp only; apply thenExpectM_forget; intro s4; rfl

theorem stmtBlockM_forget (reg : Registry) (st : ISt) (m : Mem) (s : List Tok) :
    (stmtBlockM reg st m s).forget = stmtBlock reg st s := by
  unfold stmtBlockM stmtBlock
  apply thenExpectM_forget; intro s1
  dsimp only
  cases tokentN s1 with
  | none => rfl
  | some ty =>
    by_cases hty : ty = .lpar
    · subst hty
      dsimp only
      cases advance s1 with
      | ub => rfl
      | «at» b s2 =>
        dsimp only
        apply thenExpectM_forget; intro s3
        apply thenExpectM_forget; intro s4
        apply thenExpectM_forget; intro s5; rfl
    · cases ty <;> first | exact absurd rfl hty | (apply thenExpectM_forget; intro s2; rfl)

theorem stmtM_forget (reg : Registry) (st : ISt) (m : Mem) (s : List Tok) :
    (stmtM reg st m s).forget = stmt reg st s := by
  cases s with
  | nil => rfl
  | cons t r =>
    dsimp only [stmtM, stmt]
    cases t.ty
    case name => exact stmtNameM_forget _ _ _
    case blocktype => exact stmtBlockM_forget _ _ _ _
    case blockEnd => dsimp only; split <;> rfl
    all_goals rfl

theorem stmtCatchM_forget (reg : Registry) (st : ISt) (m : Mem) (s : List Tok) :
    (stmtCatchM reg st m s).map (fun x => (x.1, x.2.2)) = stmtCatch reg st s := by
  unfold stmtCatchM stmtCatch
  rw [← stmtM_forget reg st m s]
  cases stmtM reg st m s with
  | ub => rfl
  | ok st' m' s' => rfl
  | exn st' m' s' =>
    dsimp only [StmtResM.forget]
    cases advanceTo s' <;> rfl

theorem interpLoopM_forget (reg : Registry) : ∀ (n : Nat) (st : ISt) (m : Mem) (s : List Tok),
    s.length < n → (interpLoopM reg n st m s).forget = interpLoop reg st s := by
  intro n
  induction n with
  | zero => intro _ _ s h; omega
  | succ n ih =>
    intro st m s h
    rw [interpLoop_eq, ← stmtCatchM_forget reg st m s]
    unfold interpLoopM
    cases hc : stmtCatchM reg st m s with
    | none => rfl
    | some x =>
      obtain ⟨st', m', s'⟩ := x
      have hl : stmtCatch reg st s = some (st', s') := by
        rw [← stmtCatchM_forget reg st m s, hc]; rfl
      dsimp only [Option.map]
      cases ha : advance s' with
      | ub => rfl
      | «at» b s'' =>
        cases b with
        | false => dsimp only; split <;> rfl
        | true =>
          dsimp only
          exact ih _ _ _ (by have := advance_true_length ha; have := stmtCatch_length hl; omega)

/-! ### Counting the objects of a tree -/

namespace Block

theorem blockCounts_append (a b : List Block) : blockCounts (a ++ b) = blockCounts a + blockCounts b := by
  induction a with
  | nil => simp [blockCounts]
  | cons x xs ih => simp only [List.cons_append, blockCounts, ih]; omega

theorem setCounts_append (a b : List Block) : setCounts (a ++ b) = setCounts a + setCounts b := by
  induction a with
  | nil => simp [setCounts]
  | cons x xs ih => simp only [List.cons_append, setCounts, ih]; omega

theorem blockCounts_modify {l : List Block} {i : Nat} {f : Block → Block} {c : Block} (h : l[i]? = some c) :
    blockCounts (l.modify i f) + c.blockCount = blockCounts l + (f c).blockCount := by
  induction l generalizing i with
  | nil => simp at h
  | cons x xs ih =>
    cases i with
    | zero => simp at h; subst h; simp [blockCounts]; omega
    | succ i => simp at h; have := ih h; simp [blockCounts]; omega

theorem setCounts_modify {l : List Block} {i : Nat} {f : Block → Block} {c : Block} (h : l[i]? = some c) :
    setCounts (l.modify i f) + c.setCount = setCounts l + (f c).setCount := by
  induction l generalizing i with
  | nil => simp at h
  | cons x xs ih =>
    cases i with
    | zero => simp at h; subst h; simp [setCounts]; omega
    | succ i => simp at h; have := ih h; simp [setCounts]; omega

theorem count_modifyAt {p : List Nat} {f : Block → Block} {b c : Block} (h : at? p b = some c) :
    (modifyAt p f b).blockCount + c.blockCount = b.blockCount + (f c).blockCount ∧
      (modifyAt p f b).setCount + c.setCount = b.setCount + (f c).setCount := by
  induction p generalizing b with
  | nil => simp only [at?, Option.some.injEq] at h; subst h; simp only [modifyAt]; omega
  | cons i p ih =>
    obtain ⟨ty, n, sec, sets, subs⟩ := b
    simp only [at?, Block.subs] at h
    cases hi : subs[i]? with
    | none => rw [hi] at h; cases h
    | some d =>
      rw [hi] at h
      obtain ⟨h1, h2⟩ := ih (b := d) h
      have hb := blockCounts_modify (f := modifyAt p f) hi
      have hs := setCounts_modify (f := modifyAt p f) hi
      simp only [modifyAt, blockCount, setCount, Block.settings, Block.subs]
      omega

theorem length_modifyFirst {α : Type} (p : α → Bool) (f : α → α) (l : List α) :
    (modifyFirst p f l).length = l.length := by
  induction l with
  | nil => rfl
  | cons x xs ih => simp only [modifyFirst]; split <;> simp [ih]

theorem count_addSetting (b : Block) (s : Setting) :
    (b.addSetting s).blockCount = b.blockCount ∧
      (b.addSetting s).setCount = b.setCount + (if b.hasSetting s.name then 0 else 1) := by
  obtain ⟨ty, n, sec, sets, subs⟩ := b
  unfold addSetting
  split <;> rename_i h <;> simp [blockCount, setCount, Block.settings, Block.subs, h, length_modifyFirst] <;> omega

theorem count_addSubBlock (b : Block) (t : Nat) (n s : Str) :
    (b.addSubBlock t n s).1.blockCount = b.blockCount + (if (b.subIdx? t n).isSome then 0 else 1) ∧
      (b.addSubBlock t n s).1.setCount = b.setCount := by
  obtain ⟨ty, nm, sec, sets, subs⟩ := b
  unfold addSubBlock
  split <;> rename_i h <;>
    simp [blockCount, setCount, Block.settings, Block.subs, h, blockCounts_append, setCounts_append, fresh,
      blockCounts, setCounts] <;> omega

theorem addSubBlock_there (b : Block) (t : Nat) (n s : Str) :
    ∃ c, (b.addSubBlock t n s).1.subs[(b.addSubBlock t n s).2]? = some c := by
  unfold addSubBlock
  split
  · rename_i i h
    have := List.findIdx?_eq_some_iff_getElem.1 h
    obtain ⟨hi, _⟩ := this
    exact ⟨_, List.getElem?_eq_getElem hi⟩
  · exact ⟨fresh t n s, by simp [Block.subs]⟩

theorem at?_dropLast {p : List Nat} {b c : Block} (h : at? p b = some c) : ∃ d, at? p.dropLast b = some d := by
  rcases List.eq_nil_or_concat p with rfl | ⟨q, i, rfl⟩
  · exact ⟨b, rfl⟩
  · rw [List.concat_eq_append, at?_append] at h
    rw [List.concat_eq_append, List.dropLast_concat]
    cases hq : at? q b with
    | none => rw [hq] at h; cases h
    | some d => exact ⟨d, rfl⟩

end Block

/-- What holds between statements: the path leads to a block, no setting is lost, and the tree has no
more blocks than were made. -/
def MInv (st : ISt) (m : Mem) : Prop :=
  (∃ b, st.root.at? st.path = some b) ∧ m.sets = m.freed + st.root.setCount ∧ st.root.blockCount ≤ m.blocks

theorem MInv_add {st : ISt} {m : Mem} (h : MInv st m) (n : Str) (vs : List Str) :
    MInv ⟨st.root.modifyAt st.path (fun b => b.addSetting ⟨n, vs, false⟩), st.path, st.err⟩ (addSettingM st m n) := by
  obtain ⟨⟨b, hb⟩, hs, hk⟩ := h
  obtain ⟨h1, h2⟩ := Block.count_modifyAt (f := fun b => b.addSetting ⟨n, vs, false⟩) hb
  obtain ⟨h3, h4⟩ := Block.count_addSetting b ⟨n, vs, false⟩
  refine ⟨⟨_, Block.at?_modifyAt hb⟩, ?_, ?_⟩
  · unfold addSettingM; rw [hb]; dsimp only at *; split <;> rename_i hx <;> simp [hx] at h4 ⊢ <;> omega
  · unfold addSettingM; rw [hb]; dsimp only at *; split <;> dsimp only <;> omega

theorem MInv_enter {st : ISt} {m : Mem} (h : MInv st m) (t : Nat) (n sec : Str) :
    MInv (enterBlock st t n sec) ⟨m.blocks + 1, m.sets, m.freed⟩ := by
  obtain ⟨⟨b, hb⟩, hs, hk⟩ := h
  obtain ⟨h1, h2⟩ := Block.count_modifyAt (f := fun b => (b.addSubBlock t n sec).1) hb
  obtain ⟨h3, h4⟩ := Block.count_addSubBlock b t n sec
  obtain ⟨c, hc⟩ := Block.addSubBlock_there b t n sec
  unfold enterBlock
  rw [hb]
  refine ⟨⟨c, ?_⟩, ?_, ?_⟩
  · dsimp only
    rw [Block.at?_append, Block.at?_modifyAt hb]
    exact hc
  · dsimp only at *; omega
  · dsimp only at *; split at h3 <;> omega

/-- A property of the state and counters after a statement. -/
def StmtResM.All (P : ISt → Mem → Prop) : StmtResM → Prop
  | .ub => True
  | .ok st m _ => P st m
  | .exn st m _ => P st m

theorem thenExpectM_all {P : ISt → Mem → Prop} {ty : TokTy} {st : ISt} {m : Mem} {s : List Tok}
    {k : List Tok → StmtResM} (h : P st m) (hk : ∀ s', (k s').All P) : (thenExpectM ty st m s k).All P := by
  unfold thenExpectM
  split
  · trivial
  · exact hk _
  · exact h

theorem stmtM_inv (reg : Registry) {st : ISt} {m : Mem} (h : MInv st m) (s : List Tok) :
    (stmtM reg st m s).All MInv := by
  cases s with
  | nil => trivial
  | cons t r =>
    dsimp only [stmtM]
    cases t.ty
    case name =>
      dsimp only
      unfold stmtNameM
      apply thenExpectM_all h; intro s1
      apply thenExpectM_all h; intro s2
      cases moreValues s2 with
      | none => trivial
      | some x =>
        dsimp only
        have h' := MInv_add h (curVal (t :: r)) (curVal s2 :: x.1)
        apply thenExpectM_all h'
        intro s4
        exact h'
    case blocktype =>
      dsimp only
      unfold stmtBlockM
      apply thenExpectM_all h; intro s1
      dsimp only
      split
      · trivial
      · split
        · trivial
        · apply thenExpectM_all h; intro s3
          apply thenExpectM_all h; intro s4
          apply thenExpectM_all h; intro s5
          exact MInv_enter h _ _ _
      · apply thenExpectM_all h; intro s2
        exact MInv_enter h _ _ _
    case blockEnd =>
      dsimp only
      split
      · exact h
      · obtain ⟨⟨b, hb⟩, h2, h3⟩ := h
        exact ⟨Block.at?_dropLast hb, h2, h3⟩
    all_goals exact h

theorem stmtCatchM_inv {reg : Registry} {st st' : ISt} {m m' : Mem} {s s' : List Tok} (h : MInv st m)
    (hc : stmtCatchM reg st m s = some (st', m', s')) : MInv st' m' := by
  have hi := stmtM_inv reg h s
  unfold stmtCatchM at hc
  split at hc
  · cases hc
  · rename_i heq; rw [heq] at hi; cases hc; exact hi
  · rename_i heq
    rw [heq] at hi
    split at hc
    · cases hc
    · cases hc; exact hi

/-- What `Interpret` leaves: no setting is lost, and the tree has no more blocks than were made. -/
def IResM.Kept : IResM → Prop
  | .ub => True
  | .thrown r _ m => m.sets = m.freed + r.setCount ∧ r.blockCount ≤ m.blocks
  | .ok r _ m => m.sets = m.freed + r.setCount ∧ r.blockCount ≤ m.blocks

theorem interpLoopM_kept (reg : Registry) : ∀ (n : Nat) (st : ISt) (m : Mem) (s : List Tok), MInv st m →
    (interpLoopM reg n st m s).Kept := by
  intro n
  induction n with
  | zero => intro _ _ _ _; trivial
  | succ n ih =>
    intro st m s h
    unfold interpLoopM
    split
    · trivial
    · rename_i st' m' s' hc
      have h' := stmtCatchM_inv h hc
      split
      · trivial
      · exact ih _ _ _ h'
      · split
        · exact h'.2
        · exact h'.2

theorem interpretM_kept (reg : Registry) (err : Bool) (ts : List Tok) : (interpretM reg err ts).Kept :=
  interpLoopM_kept reg _ _ _ _ ⟨⟨_, rfl⟩, rfl, Nat.le_refl _⟩

/-! ### Counting for streams without errors -/

/-- A property of the counters after a statement that completes. -/
def StmtResM.OkM (P : Mem → Prop) : StmtResM → Prop
  | .ok _ m _ => P m
  | _ => True

theorem thenExpectM_okM {P : Mem → Prop} {ty : TokTy} {st : ISt} {m : Mem} {s : List Tok}
    {k : List Tok → StmtResM} (hk : ∀ s', (k s').OkM P) : (thenExpectM ty st m s k).OkM P := by
  unfold thenExpectM
  split
  · trivial
  · exact hk _
  · trivial

theorem addSettingM_counts (st : ISt) (m : Mem) (n : Str) :
    (addSettingM st m n).blocks = m.blocks ∧ (addSettingM st m n).sets = m.sets + 1 := by
  unfold addSettingM
  split
  · split <;> exact ⟨rfl, rfl⟩
  · exact ⟨rfl, rfl⟩

/-- What a completed statement that starts with a token of type `ty` makes. -/
theorem stmtM_counts (reg : Registry) (st : ISt) (m : Mem) (t : Tok) (r : List Tok) :
    (stmtM reg st m (t :: r)).OkM (fun m' => m'.blocks = m.blocks + (if t.ty = .blocktype then 1 else 0) ∧
      m'.sets = m.sets + (if t.ty = .name then 1 else 0)) := by
  dsimp only [stmtM]
  cases t.ty
  case name =>
    dsimp only
    unfold stmtNameM
    apply thenExpectM_okM; intro s1
    apply thenExpectM_okM; intro s2
    cases moreValues s2 with
    | none => trivial
    | some x =>
      dsimp only
      apply thenExpectM_okM
      intro s4
      have := addSettingM_counts st m (curVal (t :: r))
      exact ⟨by simp [this], by simp [this]⟩
  case blocktype =>
    dsimp only
    unfold stmtBlockM
    apply thenExpectM_okM; intro s1
    dsimp only
    simp only [reduceCtorEq, if_true, if_false]
    split
    · trivial
    · split
      · trivial
      · apply thenExpectM_okM; intro s3
        apply thenExpectM_okM; intro s4
        apply thenExpectM_okM; intro s5
        exact ⟨rfl, rfl⟩
    · apply thenExpectM_okM; intro s2
      exact ⟨rfl, rfl⟩
  case blockEnd =>
    dsimp only
    simp only [reduceCtorEq, if_false]
    by_cases hp : st.path = []
    · rw [if_pos hp]; trivial
    · rw [if_neg hp]; exact ⟨rfl, rfl⟩
  all_goals trivial

/-- The number of tokens of one type. -/
def tokCount (ty : TokTy) (ts : List Tok) : Nat := (ts.filter (fun t => t.ty == ty)).length

theorem tokCount_append (ty : TokTy) (a b : List Tok) : tokCount ty (a ++ b) = tokCount ty a + tokCount ty b := by
  simp [tokCount]

theorem Stmt1.counts {d e : Nat} {u : List Tok} (h : Stmt1 d u e) :
    ∃ t r, u = t :: r ∧ tokCount .blockStart u = (if t.ty = .blocktype then 1 else 0) ∧
      tokCount .equals u = (if t.ty = .name then 1 else 0) := by
  cases h with
  | @setting _ n e v vs s hn he hv hvs hs =>
    have hf : ∀ ty, ty ≠ .value → vs.filter (fun t => t.ty == ty) = [] := by
      intro ty hty
      rw [List.filter_eq_nil_iff]
      intro x hx
      simp [hvs x hx, Ne.symm hty]
    have hb : tokCount .blockStart (n :: e :: v :: (vs ++ [s])) = 0 := by
      simp [tokCount, hn, he, hv, hs, hf]
    have hq : tokCount .equals (n :: e :: v :: (vs ++ [s])) = 1 := by
      simp [tokCount, hn, he, hv, hs, hf]
    exact ⟨n, _, rfl, by rw [hb]; simp [hn], by rw [hq]; simp [hn]⟩
  | openBlock ht hn hl =>
    exact ⟨_, _, rfl, by simp [tokCount, ht, hn, hl], by simp [tokCount, ht, hn, hl]⟩
  | openBlockSec ht hn hlp hm hrp hl =>
    exact ⟨_, _, rfl, by simp [tokCount, ht, hn, hlp, hm, hrp, hl], by simp [tokCount, ht, hn, hlp, hm, hrp, hl]⟩
  | closeBlock hc => exact ⟨_, _, rfl, by simp [tokCount, hc], by simp [tokCount, hc]⟩

theorem countM_aux {reg : Registry} : ∀ (n : Nat) (us : List Tok) (st : ISt) (m : Mem) (eofT : Tok) (r : Block) (m' : Mem),
    us.length + 1 < n → us ≠ [] → eofT.ty = .eof → (∀ t ∈ us, t.ty ≠ .eof) →
    interpLoopM reg n st m (us ++ [eofT]) = .ok r false m' →
    m'.blocks = m.blocks + tokCount .blockStart us ∧ m'.sets = m.sets + tokCount .equals us := by
  intro n
  induction n with
  | zero => intro us st m eofT r m' hl; omega
  | succ n ih =>
    intro us st m eofT r m' hl hne heof hno h
    rw [interpLoopM] at h
    cases hs : stmtM reg st m (us ++ [eofT]) with
    | ub => simp [stmtCatchM, hs] at h
    | exn st' m1 s' =>
      exfalso
      simp only [stmtCatchM, hs] at h
      cases ha : advanceTo s' with
      | ub => simp [ha] at h
      | «at» b s'' =>
        simp only [ha] at h
        split at h
        · cases h
        · rename_i s3 ha3
          have hc : stmtCatch reg st (us ++ [eofT]) = some ({ st' with err := true }, s'') := by
            rw [← stmtCatchM_forget reg st m]
            simp only [stmtCatchM, hs, ha]
            rfl
          have hlen1 := stmtCatch_length hc
          have hlen2 := advance_true_length ha3
          simp only [List.length_append, List.length_cons, List.length_nil] at hlen1
          have hf := interpLoopM_forget reg n { st' with err := true } m1 s3 (by omega)
          rw [h] at hf
          have := interpLoop_err hf.symm rfl
          cases this
        · split at h <;> cases h
    | ok st' m1 s' =>
      have hsf : stmt reg st (us ++ [eofT]) = .ok st' s' := by
        rw [← stmtM_forget reg st m, hs]; rfl
      obtain ⟨u, l, rest, hsplit, rfl, hl', h1, herr⟩ := stmt_sound hsf
      have hno1 := h1.no_eof
      have hrest : ∃ w, rest = w ++ [eofT] ∧ us = u ++ w := by
        rcases List.eq_nil_or_concat rest with rfl | ⟨w, x, rfl⟩
        · exfalso
          rw [List.append_nil] at hsplit
          exact hno1 eofT (by rw [← hsplit]; simp) heof
        · rw [List.concat_eq_append, ← List.append_assoc] at hsplit
          obtain ⟨ha, hb⟩ := List.append_inj' hsplit rfl
          cases hb
          exact ⟨w, by simp, ha⟩
      obtain ⟨w, rfl, rfl⟩ := hrest
      obtain ⟨t, q, rfl, hcb, hcs⟩ := h1.counts
      have hcnt := stmtM_counts reg st m t (q ++ w ++ [eofT])
      rw [show t :: (q ++ w ++ [eofT]) = (t :: q) ++ w ++ [eofT] by simp, hs] at hcnt
      obtain ⟨hmb, hms⟩ := hcnt
      simp only [stmtCatchM, hs] at h
      rw [tokCount_append, tokCount_append, hcb, hcs]
      cases w with
      | nil =>
        simp only [List.nil_append, advance, hl', heof] at h
        simp only [if_false, ne_eq, not_true_eq_false, decide_false] at h
        split at h
        · injection h with _ _ hm
          subst hm
          simp only [tokCount, List.filter_nil, List.length_nil]
          omega
        · cases h
      | cons x w =>
        have ht : x.ty ≠ .eof := hno x (by simp)
        simp only [List.cons_append, advance, hl', if_false] at h
        simp only [ne_eq, ht, not_false_eq_true, decide_true] at h
        have := ih (x :: w) st' m1 eofT r m' (by simp at hl ⊢; omega) (by simp) heof
          (fun y hy => hno y (List.mem_append_right _ hy)) h
        omega

/-! ### Documents -/

mutual
/-- The number of blocks written in a part of a document. -/
def Item.blks : Item → Nat
  | .set _ _ _ => 0
  | .blk _ _ _ body => 1 + itemsBlks body
def itemsBlks : List Item → Nat
  | [] => 0
  | i :: is => i.blks + itemsBlks is
end

mutual
/-- The number of settings written in a part of a document. -/
def Item.sets : Item → Nat
  | .set _ _ _ => 1
  | .blk _ _ _ body => itemsSets body
def itemsSets : List Item → Nat
  | [] => 0
  | i :: is => i.sets + itemsSets is
end

mutual
theorem Item.toks_count (i : Item) : tokCount .blockStart i.toks = i.blks ∧ tokCount .equals i.toks = i.sets ∧
    ∀ t ∈ i.toks, t.ty ≠ .eof := by
  cases i with
  | set n v vs =>
    have hf : ∀ ty, ty ≠ .value → (vs.map (fun x => (⟨.value, x⟩ : Tok))).filter (fun t => t.ty == ty) = [] := by
      intro ty hty
      rw [List.filter_eq_nil_iff]
      intro x hx
      obtain ⟨y, -, rfl⟩ := List.mem_map.1 hx
      simp [Ne.symm hty]
    refine ⟨?_, ?_, ?_⟩
    · simp [tokCount, Item.toks, Item.blks]
    · simp [tokCount, Item.toks, Item.sets]
    · intro t ht
      simp only [Item.toks, List.mem_cons, List.mem_append, List.mem_map, List.not_mem_nil, or_false] at ht
      rcases ht with rfl | rfl | rfl | ⟨y, -, rfl⟩ | rfl <;> simp
  | blk t n sec body =>
    obtain ⟨h1, h2, h3⟩ := itemsToks_count body
    simp only [tokCount] at h1 h2
    refine ⟨?_, ?_, ?_⟩
    · cases sec <;> simp [tokCount, Item.toks, Item.blks, secToks, h1] <;> omega
    · cases sec <;> simp [tokCount, Item.toks, Item.sets, secToks, h2]
    · intro x hx
      cases sec with
      | none =>
        simp only [Item.toks, secToks, List.mem_cons, List.mem_append, List.not_mem_nil, or_false, false_or] at hx
        rcases hx with rfl | rfl | rfl | hx | rfl
        · simp
        · simp
        · simp
        · exact h3 x hx
        · simp
      | some q =>
        simp only [Item.toks, secToks, List.mem_cons, List.mem_append, List.not_mem_nil, or_false] at hx
        rcases hx with rfl | rfl | (rfl | rfl | rfl) | rfl | hx | rfl
        · simp
        · simp
        · simp
        · simp
        · simp
        · simp
        · exact h3 x hx
        · simp
theorem itemsToks_count (is : List Item) : tokCount .blockStart (itemsToks is) = itemsBlks is ∧
    tokCount .equals (itemsToks is) = itemsSets is ∧ ∀ t ∈ itemsToks is, t.ty ≠ .eof := by
  cases is with
  | nil => exact ⟨rfl, rfl, by simp [itemsToks]⟩
  | cons i is =>
    obtain ⟨a1, a2, a3⟩ := Item.toks_count i
    obtain ⟨b1, b2, b3⟩ := itemsToks_count is
    refine ⟨?_, ?_, ?_⟩
    · rw [itemsToks, tokCount_append, a1, b1, itemsBlks]
    · rw [itemsToks, tokCount_append, a2, b2, itemsSets]
    · intro t ht
      rw [itemsToks, List.mem_append] at ht
      rcases ht with ht | ht
      · exact a3 t ht
      · exact b3 t ht
end

mutual
theorem Item.tree_count (bts : List Str) (i : Item) : Block.blockCounts (i.tree bts) = i.blks ∧
    (match i with | .set _ _ _ => 1 | .blk _ _ _ _ => 0) + Block.setCounts (i.tree bts) = i.sets := by
  cases i with
  | set n v vs => simp [Item.tree, Block.blockCounts, Block.setCounts, Item.blks, Item.sets]
  | blk t n sec body =>
    obtain ⟨h1, h2⟩ := itemsTree_count bts body
    simp only [Item.tree, Block.blockCounts, Block.setCounts, Block.blockCount, Block.setCount, Item.blks, Item.sets]
    omega
theorem itemsTree_count (bts : List Str) (is : List Item) : Block.blockCounts (itemsTree bts is) = itemsBlks is ∧
    (settingsOf is).length + Block.setCounts (itemsTree bts is) = itemsSets is := by
  cases is with
  | nil => exact ⟨rfl, rfl⟩
  | cons i is =>
    obtain ⟨a1, a2⟩ := Item.tree_count bts i
    obtain ⟨b1, b2⟩ := itemsTree_count bts is
    refine ⟨?_, ?_⟩
    · rw [itemsTree, Block.blockCounts_append, a1, b1, itemsBlks]
    · rw [itemsTree, Block.setCounts_append, itemsSets]
      cases i <;> simp only [settingsOf, List.length_cons] <;> simp only at a2 <;> omega
end

theorem interpretM_forget (reg : Registry) (err : Bool) (ts : List Tok) :
    (interpretM reg err ts).forget = interpret reg err ts :=
  interpLoopM_forget reg _ _ _ _ (Nat.lt_succ_self _)

theorem interpret_items (reg : Registry) (err : Bool) (items : List Item) (hne : items ≠ [])
    (hv : itemsValid reg items) : interpret reg err (itemsToks items ++ [eofTok]) =
      .ok (applyItems reg items (Block.fresh 0 "<root>".toList [])) err := by
  have hh : itemsToks items ++ [eofTok] ≠ [] ∧ ∀ t, (itemsToks items ++ [eofTok]).head? = some t →
      t.ty ≠ .eof := by
    cases items with
    | nil => exact absurd rfl hne
    | cons i is => cases i <;> simp [itemsToks, Item.toks]
  rw [interpret_eq_cont reg err hh.2 hh.1]
  rw [cont_items items hv _ (Block.fresh 0 "<root>".toList []) rfl]
  simp [cont, eofTok, Block.modifyAt]

/-- The objects of a tree. -/
def Block.objects (b : Block) : Nat := b.blockCount + b.setCount

/-- What one load makes and nobody can reach or release afterwards: the tree that is replaced, the
blocks that were made for a header whose block existed, and everything if the load throws. -/
def LMem.lostBy (reg : Registry) (w : LMem) (ts : List Tok) : Nat :=
  match interpretM reg w.err ts with
  | .ub => 0
  | .thrown root _ m => ts.length + root.objects + (m.blocks - root.blockCount)
  | .ok root _ m => w.root.objects + (m.blocks - root.blockCount)

/-- The same for one load after another. -/
def LMem.lostIn (reg : Registry) (w : LMem) : List (List Tok) → Nat
  | [] => 0
  | ts :: rest =>
    match w.load reg ts with
    | some w' => w.lostBy reg ts + LMem.lostIn reg w' rest
    | none => 0

theorem load_balance {reg : Registry} {w w' : LMem} {ts : List Tok} (h : w.load reg ts = some w') :
    w'.made + w.freed + w.root.objects = w.made + w'.freed + w'.root.objects + w.lostBy reg ts := by
  have hk := interpretM_kept reg w.err ts
  unfold LMem.load at h
  unfold LMem.lostBy
  cases hi : interpretM reg w.err ts with
  | ub => rw [hi] at h; cases h
  | thrown root e m =>
    rw [hi] at h hk
    obtain ⟨h1, h2⟩ := hk
    cases h
    simp only [Block.objects]
    omega
  | ok root e m =>
    rw [hi] at h hk
    obtain ⟨h1, h2⟩ := hk
    cases h
    simp only [Block.objects]
    omega

theorem loads_balance {reg : Registry} : ∀ (hist : List (List Tok)) (w w' : LMem), w.loads reg hist = some w' →
    w'.made + w.freed + w.root.objects = w.made + w'.freed + w'.root.objects + w.lostIn reg hist := by
  intro hist
  induction hist with
  | nil => intro w w' h; cases h; simp only [LMem.lostIn]; omega
  | cons ts rest ih =>
    intro w w' h
    unfold LMem.loads at h
    unfold LMem.lostIn
    cases hl : w.load reg ts with
    | none => rw [hl] at h; cases h
    | some w1 =>
      rw [hl] at h
      have h1 := load_balance hl
      have h2 := ih w1 w' h
      dsimp only
      omega

theorem blockCount_pos (b : Block) : 1 ≤ b.blockCount := by
  cases b; simp only [Block.blockCount]; omega

/-- Every load loses something. -/
theorem lostBy_pos {reg : Registry} {w w' : LMem} {ts : List Tok} (h : w.load reg ts = some w') :
    1 ≤ w.lostBy reg ts := by
  unfold LMem.load at h
  unfold LMem.lostBy
  cases hi : interpretM reg w.err ts with
  | ub => rw [hi] at h; cases h
  | thrown root e m => have := blockCount_pos root; simp only [Block.objects]; omega
  | ok root e m => have := blockCount_pos w.root; simp only [Block.objects]; omega

theorem lostIn_length {reg : Registry} : ∀ (hist : List (List Tok)) (w w' : LMem), w.loads reg hist = some w' →
    hist.length ≤ w.lostIn reg hist := by
  intro hist
  induction hist with
  | nil => intro w w' h; exact Nat.zero_le _
  | cons ts rest ih =>
    intro w w' h
    unfold LMem.loads at h
    unfold LMem.lostIn
    cases hl : w.load reg ts with
    | none => rw [hl] at h; cases h
    | some w1 =>
      rw [hl] at h
      have h1 := lostBy_pos hl
      have h2 := ih w1 w' h
      simp only [List.length_cons]
      omega

end Softlib.Config

namespace Softlib

open Config

/-- C103: the interpreter with counters is the interpreter of the other properties. -/
theorem C103_same_interpreter (reg : Registry) (err : Bool) (ts : List Tok) :
    (interpretM reg err ts).forget = interpret reg err ts := interpretM_forget reg err ts

/-- C103: whatever the token stream, with syntax errors or without, and also when the interpreter
throws in the end: the settings made are those of the tree and those deleted. -/
theorem C103_settings (reg : Registry) (err : Bool) (ts : List Tok) :
    match interpretM reg err ts with
    | .ub => True
    | .thrown root _ m => m.sets = m.freed + root.setCount ∧ root.blockCount ≤ m.blocks
    | .ok root _ m => m.sets = m.freed + root.setCount ∧ root.blockCount ≤ m.blocks := by
  have := interpretM_kept reg err ts
  revert this
  cases interpretM reg err ts <;> exact id

/-- C103: an accepted stream makes the root and one block for every `{`, and one setting for
every `=`. -/
theorem C103_made (reg : Registry) (us : List Tok) (e : Tok) (he : e.ty = .eof) (hne : us ≠ [])
    (hno : ∀ t ∈ us, t.ty ≠ .eof) (root : Block) (m : Mem)
    (h : interpretM reg false (us ++ [e]) = .ok root false m) :
    m.blocks = 1 + tokCount .blockStart us ∧ m.sets = tokCount .equals us := by
  obtain ⟨h1, h2⟩ := countM_aux _ us _ _ e root m (by simp) hne he hno h
  exact ⟨h1, by simpa using h2⟩

/-- C103: what loading a document makes: a block for the root and for every block header, a setting
for every setting; the settings written again are deleted, the blocks written again are lost. -/
theorem C103_document (reg : Registry) (items : List Item) (hne : items ≠ []) (hv : itemsValid reg items) :
    ∃ root, interpretM reg false (itemsToks items ++ [eofTok]) =
        .ok root false ⟨1 + itemsBlks items, itemsSets items, itemsSets items - root.setCount⟩ ∧
      root = applyItems reg items (Block.fresh 0 "<root>".toList []) ∧ root.setCount ≤ itemsSets items ∧
      root.blockCount ≤ 1 + itemsBlks items := by
  have hf := interpretM_forget reg false (itemsToks items ++ [eofTok])
  rw [interpret_items reg false items hne hv] at hf
  have hk := interpretM_kept reg false (itemsToks items ++ [eofTok])
  obtain ⟨hc1, hc2, hc3⟩ := itemsToks_count items
  have hne' : itemsToks items ≠ [] := by
    cases items with
    | nil => exact absurd rfl hne
    | cons i is => cases i <;> simp [itemsToks, Item.toks]
  cases hi : interpretM reg false (itemsToks items ++ [eofTok]) with
  | ub => rw [hi] at hf; cases hf
  | thrown r e m => rw [hi] at hf; cases hf
  | ok r e m =>
    rw [hi] at hf hk
    simp only [IResM.forget, IRes.ok.injEq] at hf
    obtain ⟨hr, rfl⟩ := hf
    obtain ⟨hk1, hk2⟩ := hk
    obtain ⟨hm1, hm2⟩ := C103_made reg (itemsToks items) eofTok rfl hne' hc3 r m hi
    rw [hc1] at hm1
    rw [hc2] at hm2
    refine ⟨r, ?_, hr, by omega, by omega⟩
    obtain ⟨mb, ms, mf⟩ := m
    dsimp only at *
    congr 2
    omega

/-- C103, what holds: a document that defines nothing twice loads into a tree that holds every block
and setting that was made; nothing is deleted and nothing lost. -/
theorem C103_distinct_document_partial (reg : Registry) (items : List Item) (hne : items ≠ [])
    (hv : itemsValid reg items) (hd : DocDistinct items) :
    interpretM reg false (itemsToks items ++ [eofTok]) =
      .ok (docTree reg items) false ⟨(docTree reg items).blockCount, (docTree reg items).setCount, 0⟩ := by
  obtain ⟨root, h, hr, -, -⟩ := C103_document reg items hne hv
  rw [applyItems_tree items hv hd.2.2 hd.1 hd.2.1 _ (by simp [Block.fresh, Block.settings])
    (by simp [Block.fresh, Block.subs])] at hr
  have hr' : root = docTree reg items := by
    rw [hr]; simp [docTree, Block.fresh, Block.settings, Block.subs, Block.ty, Block.name, Block.sec]
  subst hr'
  obtain ⟨hb, hs⟩ := itemsTree_count reg items
  rw [h]
  simp only [docTree, Block.blockCount, Block.setCount, IResM.ok.injEq, Mem.mk.injEq, true_and]
  omega

/-- C103, what holds for every history of loads: the objects made and not released are those of the
tree that is held and those lost, and the losses are exactly: at a load that succeeds, the tree held
before and the blocks made for headers that repeat one; at a load that throws, all tokens, blocks and
settings made for it. -/
theorem C103_balance_partial (reg : Registry) (hist : List (List Tok)) (w : LMem)
    (h : LMem.fresh.loads reg hist = some w) :
    w.made = w.freed + w.root.objects + LMem.fresh.lostIn reg hist := by
  have := loads_balance hist LMem.fresh w h
  simp only [LMem.fresh, Block.objects, Block.fresh, Block.blockCount, Block.setCount, Block.blockCounts,
    Block.setCounts, List.length_nil] at this ⊢
  omega

/-- The objects of the trees of several documents. -/
def docObjects (reg : Registry) (docs : List (List Item)) : Nat :=
  (docs.map (fun d => (docTree reg d).objects)).sum

theorem loads_docs (reg : Registry) : ∀ (docs : List (List Item)) (w : LMem), w.err = false →
    (∀ d ∈ docs, d ≠ [] ∧ itemsValid reg d ∧ DocDistinct d) →
    ∃ w', w.loads reg (docs.map (fun d => itemsToks d ++ [eofTok])) = some w' ∧
      w'.made + w.freed = w'.freed + w.made + docObjects reg docs ∧ w'.err = false ∧
      (w'.root = match docs.getLast? with | some d => docTree reg d | none => w.root) := by
  intro docs
  induction docs with
  | nil => intro w hw _; exact ⟨w, rfl, by simp [docObjects]; omega, hw, rfl⟩
  | cons d docs ih =>
    intro w hw hd
    obtain ⟨h1, h2, h3⟩ := hd d (by simp)
    have hi := C103_distinct_document_partial reg d h1 h2 h3
    obtain ⟨w', hl, hm, he, hr⟩ := ih ⟨docTree reg d, false,
      w.made + (itemsToks d ++ [eofTok]).length + (docTree reg d).blockCount + (docTree reg d).setCount,
      w.freed + 0 + (itemsToks d ++ [eofTok]).length⟩ rfl (fun x hx => hd x (by simp [hx]))
    refine ⟨w', ?_, ?_, he, ?_⟩
    · rw [List.map_cons, LMem.loads]
      unfold LMem.load
      rw [hw, hi]
      exact hl
    · simp only [docObjects, List.map_cons, List.sum_cons, Block.objects] at hm ⊢
      omega
    · rw [hr]
      cases docs with
      | nil => rfl
      | cons x xs => rw [List.getLast?_cons_cons]; cases h : (x :: xs).getLast? <;> simp at h ⊢

/-- C103 as stated fails: loading documents one after another keeps, besides the root of the
constructor, the trees of all of them, although only the last can be reached. -/
theorem C103_refuted_reload (reg : Registry) (docs : List (List Item))
    (hd : ∀ d ∈ docs, d ≠ [] ∧ itemsValid reg d ∧ DocDistinct d) :
    ∃ w, LMem.fresh.loads reg (docs.map (fun d => itemsToks d ++ [eofTok])) = some w ∧
      w.made = w.freed + 1 + docObjects reg docs ∧
      (w.root = match docs.getLast? with | some d => docTree reg d | none => Block.fresh 0 "<root>".toList []) := by
  obtain ⟨w, h1, h2, -, h4⟩ := loads_docs reg docs LMem.fresh rfl hd
  exact ⟨w, h1, by simp only [LMem.fresh] at h2; omega, h4⟩

/-- C103 as stated fails for every program: after `n` loads, whatever they are and whether they throw,
more than `n` objects remain when the configuration is destroyed; the destructor releases none. -/
theorem C103_refuted_destroyed (reg : Registry) (hist : List (List Tok)) (w : LMem)
    (h : LMem.fresh.loads reg hist = some w) : w.destroy.2 + hist.length + 1 ≤ w.destroy.1 := by
  have h1 := C103_balance_partial reg hist w h
  have h2 := lostIn_length hist _ w h
  have h3 := blockCount_pos w.root
  simp only [LMem.destroy, Block.objects] at *
  omega

/-- C103 as stated fails: a document that leaves a block open loses its tokens and everything made
from it. -/
theorem C103_refuted_unclosed (reg : Registry) (w : LMem) (us : List Tok) (e : Tok) (he : e.ty = .eof) (d : Nat)
    (h : Stmts 0 us (d + 1)) : ∃ w', w.load reg (us ++ [e]) = some w' ∧ w'.root = w.root ∧
      w.made + us.length + 1 + 1 + w'.freed ≤ w'.made + w.freed := by
  have hf := interpretM_forget reg w.err (us ++ [e])
  rw [C07_unclosed_rejected reg w.err us e he d h] at hf
  have hk := interpretM_kept reg w.err (us ++ [e])
  unfold LMem.load
  cases hi : interpretM reg w.err (us ++ [e]) with
  | ub => rw [hi] at hf; cases hf
  | ok r e m => rw [hi] at hf; cases hf
  | thrown r e m =>
    rw [hi] at hk
    obtain ⟨h1, h2⟩ := hk
    have := blockCount_pos r
    refine ⟨_, rfl, rfl, ?_⟩
    simp only [List.length_append, List.length_cons, List.length_nil]
    omega

/-- `t b { x = 1; } t b { x = 2; }` with the block type `t`: three blocks made, two in the tree; two
settings made, one deleted, one in the tree. -/
example : ∃ root, interpretM ["/root".toList, ['t']] false
    ([⟨.blocktype, ['t']⟩, ⟨.blockname, ['b']⟩, ⟨.blockStart, ['{']⟩, ⟨.name, ['x']⟩, ⟨.equals, ['=']⟩,
      ⟨.value, ['1']⟩, ⟨.endStatement, [';']⟩, ⟨.blockEnd, ['}']⟩,
      ⟨.blocktype, ['t']⟩, ⟨.blockname, ['b']⟩, ⟨.blockStart, ['{']⟩, ⟨.name, ['x']⟩, ⟨.equals, ['=']⟩,
      ⟨.value, ['2']⟩, ⟨.endStatement, [';']⟩, ⟨.blockEnd, ['}']⟩] ++ [eofTok]) = .ok root false ⟨3, 2, 1⟩ ∧
    root.blockCount = 2 ∧ root.setCount = 1 := by
  refine ⟨.mk 0 "<root>".toList [] [] [.mk 1 ['b'] [] [⟨['x'], [['2']], true⟩] []], ?_, ?_, ?_⟩ <;> rfl

/-- `x = 1; y = 2;` loaded three times: seven blocks and settings of replaced trees remain at the end,
besides the three of the tree that is held. -/
example : ∃ w, LMem.fresh.loads [] ((List.replicate 3 [Item.set ['x'] ['1'] [], Item.set ['y'] ['2'] []]).map
      (fun d => itemsToks d ++ [eofTok])) = some w ∧ w.made = w.freed + 10 ∧ w.root.objects = 3 := by
  obtain ⟨w, h1, h2, h3⟩ := C103_refuted_reload []
    (List.replicate 3 [Item.set ['x'] ['1'] [], Item.set ['y'] ['2'] []]) (by
      intro d hd
      have := List.eq_of_mem_replicate hd
      subst this
      refine ⟨by simp, ?_, ?_⟩
      · simp [itemsValid, Item.Valid, NotPunct, IsPunct]
      · simp [DocDistinct, setNames, blkKeys, itemsDistinct, Item.Distinct])
  refine ⟨w, h1, h2, ?_⟩
  rw [h3]
  rfl

/-- The unclosed document `t b {`. -/
example : ∃ w', LMem.fresh.load ["/root".toList, ['t']]
    ([⟨.blocktype, ['t']⟩, ⟨.blockname, ['b']⟩, ⟨.blockStart, ['{']⟩] ++ [eofTok]) = some w' ∧
      w'.root = LMem.fresh.root ∧ 1 + 3 + 1 + 1 + w'.freed ≤ w'.made + 0 :=
  C103_refuted_unclosed _ LMem.fresh _ eofTok rfl 0
    (.cons (u := [⟨.blocktype, ['t']⟩, ⟨.blockname, ['b']⟩, ⟨.blockStart, ['{']⟩]) (.openBlock rfl rfl rfl) .nil)

end Softlib
