/-
Properties C10 to C14: block-type registry, touched settings, merging.
-/
import Verif.Config.MergeLemmas
import Verif.Config.InterpProps

namespace Softlib

open Softlib.Config Softlib.Config.Block

/-! ### C10: registration -/

theorem register_cases (r : Registry) (n : Str) :
    (n ∈ r ∧ r.register n = none) ∨ (n ∉ r ∧ r.register n = some (r ++ [n], r.length)) := by
  unfold Registry.register isBlockType
  by_cases h : n ∈ r
  · exact .inl ⟨h, by simp [h]⟩
  · exact .inr ⟨h, by simp [h]⟩

theorem lookup_append (r : Registry) (n : Str) (hn : n ∉ r) :
    (Registry.stringToBlockType (r ++ [n]) n = r.length) ∧
    ∀ m ∈ r, Registry.stringToBlockType (r ++ [n]) m = Registry.stringToBlockType r m := by
  constructor
  · rw [stringToBlockType_mem (by simp)]
    unfold typeId
    rw [List.idxOf_append]
    simp [hn]
  · intro m hm
    rw [stringToBlockType_mem (by simp [hm]), stringToBlockType_mem hm]
    unfold typeId
    rw [List.idxOf_append]
    simp [hm]

/-- Facts about a run of registrations started from any registry without repetitions. -/
theorem registerAll_facts (ns : List Str) (r : Registry) (hr : r.Nodup) :
    let q := r.registerAll ns
    q.2.length = ns.length ∧ q.1.Nodup ∧ (∃ new, q.1 = r ++ new) ∧
    (∀ m ∈ r, Registry.stringToBlockType q.1 m = Registry.stringToBlockType r m) ∧
    (∀ (i : Nat) a, q.2[i]? = some (some a) → r.length ≤ a ∧
      ∀ n, ns[i]? = some n → Registry.stringToBlockType q.1 n = a) ∧
    (∀ (i j : Nat) a, q.2[i]? = some (some a) → q.2[j]? = some (some a) → i = j) ∧
    (∀ (i : Nat) n, ns[i]? = some n → (q.2[i]? = some none ↔ n ∈ r ∨ n ∈ ns.take i)) ∧
    (∀ n, n ∈ q.1 ↔ n ∈ r ∨ n ∈ ns) := by
  induction ns generalizing r with
  | nil => simp [Registry.registerAll, hr]
  | cons n ns ih =>
    rcases register_cases r n with ⟨hn, e⟩ | ⟨hn, e⟩
    · obtain ⟨h1, h2, h3, h4, h5, h6, h7, h8⟩ := ih r hr
      simp only [Registry.registerAll, e]
      refine ⟨by simp [h1], h2, h3, h4, ?_, ?_, ?_, ?_⟩
      · intro i a hi
        cases i with
        | zero => simp at hi
        | succ i => simpa using h5 i a (by simpa using hi)
      · intro i j a hi hj
        cases i with
        | zero => simp at hi
        | succ i =>
          cases j with
          | zero => simp at hj
          | succ j => simp [h6 i j a (by simpa using hi) (by simpa using hj)]
      · intro i m hm
        cases i with
        | zero => simp only [List.getElem?_cons_zero, Option.some.injEq] at hm; subst hm; simp [hn]
        | succ i =>
          have := h7 i m (by simpa using hm)
          simp only [List.getElem?_cons_succ, List.take_succ_cons, List.mem_cons, this]
          constructor
          · rintro (h | h)
            · exact .inl h
            · exact .inr (.inr h)
          · rintro (h | rfl | h)
            · exact .inl h
            · exact .inl hn
            · exact .inr h
      · intro m
        rw [h8 m, List.mem_cons]
        constructor
        · rintro (h | h)
          · exact .inl h
          · exact .inr (.inr h)
        · rintro (h | rfl | h)
          · exact .inl h
          · exact .inl hn
          · exact .inr h
    · have hr' : (r ++ [n]).Nodup := by
        rw [List.nodup_append]
        refine ⟨hr, by simp, ?_⟩
        intro a ha b hb hab
        simp only [List.mem_singleton] at hb
        subst hb; subst hab
        exact hn ha
      obtain ⟨h1, h2, ⟨new, h3⟩, h4, h5, h6, h7, h8⟩ := ih (r ++ [n]) hr'
      obtain ⟨l1, l2⟩ := lookup_append r n hn
      simp only [Registry.registerAll, e]
      refine ⟨by simp [h1], h2, ⟨n :: new, by simp [h3]⟩, ?_, ?_, ?_, ?_, ?_⟩
      · intro m hm
        rw [h4 m (by simp [hm]), l2 m hm]
      · intro i a hi
        cases i with
        | zero =>
          simp only [List.getElem?_cons_zero, Option.some.injEq] at hi
          subst hi
          refine ⟨Nat.le_refl _, ?_⟩
          intro m hm
          simp only [List.getElem?_cons_zero, Option.some.injEq] at hm
          subst hm
          rw [h4 _ (by simp), l1]
        | succ i =>
          obtain ⟨ha, hb⟩ := h5 i a (by simpa using hi)
          refine ⟨by simp at ha; omega, ?_⟩
          intro m hm
          exact hb m (by simpa using hm)
      · intro i j a hi hj
        have aux : ∀ (i : Nat), ((Registry.registerAll (r ++ [n]) ns).2[i]?) = some (some r.length) → False := by
          intro i hi
          have := (h5 i _ hi).1
          simp at this
          omega
        cases i with
        | zero =>
          cases j with
          | zero => rfl
          | succ j =>
            simp only [List.getElem?_cons_zero, Option.some.injEq] at hi
            subst hi
            exact (aux j (by simpa using hj)).elim
        | succ i =>
          cases j with
          | zero =>
            simp only [List.getElem?_cons_zero, Option.some.injEq] at hj
            subst hj
            exact (aux i (by simpa using hi)).elim
          | succ j => simp [h6 i j a (by simpa using hi) (by simpa using hj)]
      · intro i m hm
        cases i with
        | zero => simp only [List.getElem?_cons_zero, Option.some.injEq] at hm; subst hm; simp [hn]
        | succ i =>
          have := h7 i m (by simpa using hm)
          simp only [List.getElem?_cons_succ, List.take_succ_cons, List.mem_cons, this,
            List.mem_append, List.not_mem_nil, or_false, or_assoc]
      · intro m
        rw [h8 m]
        simp [or_assoc]

/-- C10: in any history of registrations after construction, successful calls return
pairwise different ids, never the root's id 0; a call fails exactly when the name is
"/root" or was registered before; afterwards each registered name is found under its id
and "/root" under 0. -/
theorem C10_registration_bijective (ns : List Str) :
    let q := Registry.init.registerAll ns
    (∀ (i j : Nat) a, q.2[i]? = some (some a) → q.2[j]? = some (some a) → i = j) ∧
    (∀ (i : Nat) a, q.2[i]? = some (some a) → a ≠ 0) ∧
    (∀ (i : Nat) n, ns[i]? = some n → (q.2[i]? = some none ↔ n = "/root".toList ∨ n ∈ ns.take i)) ∧
    (∀ (i : Nat) a n, q.2[i]? = some (some a) → ns[i]? = some n → Registry.stringToBlockType q.1 n = a) ∧
    Registry.stringToBlockType q.1 "/root".toList = 0 := by
  obtain ⟨-, -, -, h4, h5, h6, h7, -⟩ := registerAll_facts ns Registry.init (by simp [Registry.init])
  refine ⟨h6, ?_, ?_, ?_, ?_⟩
  · intro i a hi
    have := (h5 i a hi).1
    simp [Registry.init] at this
    omega
  · intro i n hn
    simpa [Registry.init] using h7 i n hn
  · intro i a n hi hn
    exact (h5 i a hi).2 n hn
  · rw [h4 _ (by simp [Registry.init])]
    decide

/-- C10: a rejected registration leaves the registry unchanged (there is no new registry),
and an accepted one only appends, so ids never change meaning. -/
theorem C10_ids_are_stable (ns ms : List Str) (n : Str) :
    let r := (Registry.init.registerAll ns).1
    n ∈ r → Registry.stringToBlockType ((r.registerAll ms).1) n = Registry.stringToBlockType r n := by
  intro r hn
  obtain ⟨-, h2, -⟩ := registerAll_facts ns Registry.init (by simp [Registry.init])
  exact (registerAll_facts ms r h2).2.2.2.1 n hn

example : (Registry.init.registerAll ["a".toList, "b".toList, "a".toList, "/root".toList]).2 =
    [some 1, some 2, none, none] := by decide

/-! ### C11: unknown types -/

/-- C11, the failure in full: every name that is not registered is reported with the id of
the root block type. -/
theorem C11_unknown_aliases_root (ns : List Str) (n : Str)
    (h : n ∉ (Registry.init.registerAll ns).1) :
    Registry.stringToBlockType (Registry.init.registerAll ns).1 n =
      Registry.stringToBlockType (Registry.init.registerAll ns).1 "/root".toList := by
  rw [(C10_registration_bijective ns).2.2.2.2]
  unfold Registry.stringToBlockType
  have : List.findIdx? (fun x => x == n) (Registry.init.registerAll ns).1 = none := by
    rw [List.findIdx?_eq_none_iff]
    intro x hx
    cases hb : x == n with
    | false => rfl
    | true => exact absurd (by rw [← (show x = n by simpa using hb)]; exact hx) h
  rw [this]

/-- C11 as stated fails. -/
theorem C11_refuted : ¬ ∀ (ns : List Str) (n m : Str), n ∉ (Registry.init.registerAll ns).1 →
    m ∈ (Registry.init.registerAll ns).1 →
    Registry.stringToBlockType (Registry.init.registerAll ns).1 n ≠
      Registry.stringToBlockType (Registry.init.registerAll ns).1 m := by
  intro h
  exact h ["a".toList] "b".toList "/root".toList (by decide) (by decide)
    (C11_unknown_aliases_root _ _ (by decide))

/-- C11, what holds: an unknown name is never reported with the id of a user type. -/
theorem C11_unknown_not_user_type_partial (ns : List Str) (n m : Str)
    (h : n ∉ (Registry.init.registerAll ns).1) (hm : m ∈ (Registry.init.registerAll ns).1)
    (hroot : m ≠ "/root".toList) :
    Registry.stringToBlockType (Registry.init.registerAll ns).1 n ≠
      Registry.stringToBlockType (Registry.init.registerAll ns).1 m := by
  rw [C11_unknown_aliases_root ns n h]
  obtain ⟨-, h2, ⟨new, h3⟩, -⟩ := registerAll_facts ns Registry.init (by simp [Registry.init])
  have hr : "/root".toList ∈ (Registry.init.registerAll ns).1 := by rw [h3]; simp [Registry.init]
  rw [stringToBlockType_mem hr, stringToBlockType_mem hm]
  intro e
  exact hroot (typeId_inj hr e).symm

example : "b".toList ∉ (Registry.init.registerAll ["a".toList]).1 ∧
    "a".toList ∈ (Registry.init.registerAll ["a".toList]).1 ∧ "a".toList ≠ "/root".toList := by decide

/-! ### C12: touched settings -/

/-- The `touched` mark of the setting `n` of a block. -/
def touchedAt (b : Block) (n : Str) : Option Bool :=
  (b.settings.find? (fun s => s.name == n)).map Setting.touched

theorem touched_add (b : Block) (m : Str) (vs : List Str) (n : Str) :
    touchedAt (b.addSetting ⟨m, vs, false⟩) n =
      if m = n then some ((touchedAt b n).isSome) else touchedAt b n := by
  unfold touchedAt addSetting
  split
  · rename_i hs
    change Option.map _ (List.find? _ (modifyFirst _ _ _)) = _
    by_cases hn : m = n
    · subst hn
      rw [find?_modifyFirst_hit (by intro x; rfl)]
      simp only [hasSetting, List.any_eq_true] at hs
      cases hf : b.settings.find? (fun x => x.name == m) with
      | none =>
        rw [List.find?_eq_none] at hf
        obtain ⟨x, hx, h⟩ := hs
        exact absurd h (hf x hx)
      | some x => simp
    · rw [find?_modifyFirst_miss]
      · simp [hn]
      · intro x hx
        have : x.name = m := by simpa using hx
        simp [this, hn]
  · rename_i hs
    change Option.map _ (List.find? _ (b.settings ++ [_])) = _
    rw [List.find?_append]
    by_cases hn : m = n
    · subst hn
      have : b.settings.find? (fun x => x.name == m) = none := by
        rw [List.find?_eq_none]
        intro x hx h
        exact hs (by simp only [hasSetting, List.any_eq_true]; exact ⟨x, hx, h⟩)
      simp [this]
    · cases b.settings.find? (fun x => x.name == n) <;> simp [hn]

theorem touched_get (b : Block) (m n : Str) :
    touchedAt (b.getSetting m).2 n =
      if m = n then (touchedAt b n).map (fun _ => true) else touchedAt b n := by
  unfold touchedAt getSetting
  cases hf : b.settings.find? (fun s => s.name == m) with
  | none =>
    simp only
    by_cases hn : m = n
    · subst hn; simp [hf]
    · simp [hn]
  | some x =>
    simp only
    change Option.map _ (List.find? _ (modifyFirst _ _ _)) = _
    by_cases hn : m = n
    · subst hn
      rw [find?_modifyFirst_hit (by intro x; rfl)]
      simp [hf]
    · rw [find?_modifyFirst_miss]
      · simp [hn]
      · intro y hy
        have : y.name = m := by simpa using hy
        simp [this, hn]

theorem touched_ops_absent (ops : List BlockOp) (b : Block) (n : Str)
    (h : ∀ vs, BlockOp.add n vs ∉ ops) (hb : touchedAt b n = none) :
    touchedAt (b.applyOps ops) n = none := by
  induction ops generalizing b with
  | nil => exact hb
  | cons op ops ih =>
    simp only [applyOps, List.foldl_cons]
    apply ih
    · intro vs hv; exact h vs (by simp [hv])
    · cases op with
      | add m vs =>
        have : m ≠ n := by rintro rfl; exact h vs (by simp)
        simp only [applyOp]
        rw [touched_add]
        simp [this, hb]
      | get m => simp only [applyOp]; rw [touched_get]; simp [hb]
      | has m => exact hb

theorem touched_ops_present (ops : List BlockOp) (b : Block) (n : Str) (t : Bool)
    (hb : touchedAt b n = some t) :
    touchedAt (b.applyOps ops) n =
      some (t || ops.any (fun op => match op with
        | .add m _ => m == n | .get m => m == n | .has _ => false)) := by
  induction ops generalizing b t with
  | nil => simp [applyOps, hb]
  | cons op ops ih =>
    simp only [applyOps, List.foldl_cons]
    cases op with
    | add m vs =>
      have h1 : touchedAt (b.applyOp (.add m vs)) n = some (t || m == n) := by
        simp only [applyOp]
        rw [touched_add]
        by_cases hn : m = n
        · subst hn; simp [hb]
        · simp [hn, hb]
      have := ih _ _ h1
      simpa [applyOps, Bool.or_assoc] using this
    | get m =>
      have h1 : touchedAt (b.applyOp (.get m)) n = some (t || m == n) := by
        simp only [applyOp]
        rw [touched_get]
        by_cases hn : m = n
        · subst hn; simp [hb]
        · simp [hn, hb]
      have := ih _ _ h1
      simpa [applyOps, Bool.or_assoc] using this
    | has m =>
      have := ih (b.applyOp (.has m)) t hb
      simpa [applyOps] using this

/-- `n` is listed by `GetUntouchedSettings` iff its mark is unset (names are unique). -/
theorem untouched_iff (b : Block) (hb : (b.settings.map Setting.name).Nodup) (n : Str) :
    n ∈ b.getUntouchedSettings.map Setting.name ↔ touchedAt b n = some false := by
  unfold getUntouchedSettings touchedAt
  generalize b.settings = l at hb
  induction l with
  | nil => simp
  | cons s l ih =>
    simp only [List.map_cons, List.nodup_cons] at hb
    by_cases hs : s.name = n
    · subst hs
      have hnot : s.name ∉ (l.filter (fun s => !s.touched)).map Setting.name := by
        intro h
        apply hb.1
        obtain ⟨x, hx, e⟩ := List.mem_map.1 h
        exact List.mem_map.2 ⟨x, (List.mem_filter.1 hx).1, e⟩
      cases ht : s.touched with
      | true => simp [ht, List.filter_cons, hnot]
      | false => simp [ht, List.filter_cons]
    · have ih' := ih hb.2
      have hbn : (s.name == n) = false := by simp [hs]
      simp only [List.find?_cons, hbn]
      rw [← ih']
      cases ht : s.touched with
      | true => simp [ht, List.filter_cons]
      | false => simp [ht, List.filter_cons, Ne.symm hs]

theorem applyOps_nodup (ops : List BlockOp) (b : Block) (hb : b.Uniq) : (b.applyOps ops).Uniq := by
  induction ops generalizing b with
  | nil => exact hb
  | cons op ops ih =>
    simp only [applyOps, List.foldl_cons]
    apply ih
    cases op with
    | add n vs => exact uniq_addSetting hb _
    | get n =>
      obtain ⟨h1, h2, h3⟩ := hb.elim
      simp only [applyOp, getSetting]
      split
      · exact hb
      · refine .mk ?_ h2 h3
        rw [map_modifyFirst (g := Setting.name) (by intro x; rfl)]
        exact h1
    | has n => exact hb

/-- C12, the exact rule: on a block filled through its operations, a setting is listed as
untouched iff since its first definition it was neither asked for nor defined again. -/
theorem C12_untouched_rule (h1 h2 : List BlockOp) (t : Nat) (nm sec n : Str) (vs : List Str)
    (hfirst : ∀ ws, BlockOp.add n ws ∉ h1) :
    n ∈ (((fresh t nm sec).applyOps (h1 ++ .add n vs :: h2)).getUntouchedSettings.map Setting.name) ↔
      BlockOp.get n ∉ h2 ∧ ∀ ws, BlockOp.add n ws ∉ h2 := by
  rw [untouched_iff _ (applyOps_nodup _ _ (uniq_fresh _ _ _)).elim.1]
  have e0 : touchedAt ((fresh t nm sec).applyOps h1) n = none :=
    touched_ops_absent h1 _ n hfirst rfl
  have e1 : touchedAt (((fresh t nm sec).applyOps h1).addSetting ⟨n, vs, false⟩) n = some false := by
    rw [touched_add]; simp [e0]
  have e2 := touched_ops_present h2 _ n false e1
  have e3 : (fresh t nm sec).applyOps (h1 ++ .add n vs :: h2) =
      (((fresh t nm sec).applyOps h1).addSetting ⟨n, vs, false⟩).applyOps h2 := by
    simp [applyOps, applyOp]
  rw [e3, e2]
  simp only [Bool.false_or, Option.some.injEq]
  rw [List.any_eq_false]
  constructor
  · intro h
    exact ⟨fun hm => h _ hm (by simp), fun ws hm => h _ hm (by simp)⟩
  · rintro ⟨ha, hb⟩ op hop
    cases op with
    | add m ws =>
      simp only [beq_iff_eq]
      rintro rfl
      exact hb ws hop
    | get m =>
      simp only [beq_iff_eq]
      rintro rfl
      exact ha hop
    | has m => simp

/-- C12, as documented, for settings defined once: untouched iff not asked for since. -/
theorem C12_untouched_iff_never_read_partial (h1 h2 : List BlockOp) (t : Nat) (nm sec n : Str)
    (vs : List Str) (honce : ∀ ws, BlockOp.add n ws ∉ h1 ++ h2) :
    n ∈ (((fresh t nm sec).applyOps (h1 ++ .add n vs :: h2)).getUntouchedSettings.map Setting.name) ↔
      BlockOp.get n ∉ h2 := by
  rw [C12_untouched_rule h1 h2 t nm sec n vs (fun ws h => honce ws (by simp [h]))]
  constructor
  · exact fun h => h.1
  · exact fun h => ⟨h, fun ws hm => honce ws (by simp [hm])⟩

/-- C12 as stated fails: a setting defined twice counts as read. -/
theorem C12_refuted : ¬ ∀ (ops : List BlockOp) (n : Str) (vs : List Str),
    BlockOp.add n vs ∈ ops → BlockOp.get n ∉ ops →
    n ∈ (((fresh 0 [] []).applyOps ops).getUntouchedSettings.map Setting.name) := by
  intro h
  have := h [.add ['a'] [['1']], .add ['a'] [['2']]] ['a'] [['1']] (by decide) (by decide)
  revert this
  decide

/-- C12: the same through the script loader — a script that defines `a` twice leaves no
untouched setting although nothing was read. -/
theorem C12_script_redefinition (reg : Registry) (ha : ['a'] ∉ reg) (err : Bool) :
    ∃ root, interpret reg err (itemsToks [.set ['a'] ['1'] [], .set ['a'] ['2'] []] ++ [eofTok]) =
      .ok root err ∧ root.hasUntouchedSettings = false := by
  have hv : itemsValid reg [.set ['a'] ['1'] [], .set ['a'] ['2'] []] := by
    simp [itemsValid, Item.Valid, NotPunct, IsPunct, ha]
  rw [interpret_eq_cont reg err (by simp [itemsToks, Item.toks]) (by simp)]
  rw [cont_items _ hv _ (fresh 0 "<root>".toList []) rfl]
  refine ⟨applyItems reg [.set ['a'] ['1'] [], .set ['a'] ['2'] []] (fresh 0 "<root>".toList []),
    ?_, ?_⟩
  · simp [cont, eofTok, Block.modifyAt]
  · simp only [applyItems, applyItem]
    decide

example : ['a'] ∈ (((fresh 1 ['b'] []).applyOps
    [.get ['a'], .add ['a'] [['1']], .has ['a'], .get ['c']]).getUntouchedSettings.map Setting.name) := by
  decide

/-! ### C13 and C14: merging -/

mutual
/-- Forget the values of all settings: what remains are the blocks, their names, types and
order, and the names, order and marks of the settings. -/
def eraseValues : Block → Block
  | .mk t n s sets sub => .mk t n s (sets.map (fun x => ⟨x.name, [], x.touched⟩)) (eraseValuesList sub)
def eraseValuesList : List Block → List Block
  | [] => []
  | b :: bs => eraseValues b :: eraseValuesList bs
end

theorem eraseValuesList_eq (l : List Block) : eraseValuesList l = l.map eraseValues := by
  induction l with
  | nil => rfl
  | cons b l ih => simp [eraseValuesList, ih]

theorem erase_mergeSettings (ss : List Setting) (b : Block) (u : Option (List Str)) :
    eraseValues (mergeSettings false ss (b, u)).1 = eraseValues b := by
  induction ss generalizing b u with
  | nil => rfl
  | cons s ss ih =>
    simp only [mergeSettings]
    split
    · rw [ih]
      obtain ⟨t, n, sc, sets, sub⟩ := b
      simp only [mergeSetting, eraseValues, settings]
      congr 1
      exact map_modifyFirst (by intro x; rfl)
    · simpa using ih b _

theorem erase_mergeSubs (cs : List Block)
    (hcs : ∀ c ∈ cs, ∀ b, eraseValues (merge false c b).1 = eraseValues b)
    (b : Block) (u : Option (List Str)) :
    eraseValues (mergeSubs false cs (b, u)).1 = eraseValues b := by
  induction cs generalizing b u with
  | nil => simp [mergeSubs]
  | cons c cs ih =>
    have ih' := ih (fun x hx => hcs x (by simp [hx]))
    simp only [mergeSubs]
    split
    · rename_i i hi
      rw [ih']
      obtain ⟨-, hlt, hat⟩ := subAt_of_subIdx hi
      have he := hcs c (by simp) (b.subAt i)
      generalize hd : (merge false c (b.subAt i)).1 = d at he
      generalize hx : b.subAt i = x at he hat
      obtain ⟨t, n, sc, sets, sub⟩ := b
      simp only [setSub, eraseValues, subs, eraseValuesList_eq, ty, name, Block.sec, settings]
      simp only [subs] at hat
      congr 1
      rw [List.map_set, he]
      apply List.ext_getElem?
      intro j
      by_cases hj : i = j
      · subst hj
        rw [List.getElem?_set]
        have hl : i < sub.length := hlt
        have hg : sub[i] = x := by
          rw [List.getElem?_eq_getElem hl] at hat
          exact Option.some.inj hat
        simp [hl, hg]
      · rw [List.getElem?_set]
        simp [hj]
    · simpa using ih' b _

/-- C13: merging with `allowNew = false` leaves all blocks, setting names, their order and
marks as they were. -/
theorem C13_shape_unchanged (c b : Block) : eraseValues (merge false c b).1 = eraseValues b := by
  induction c using Block.ind generalizing b with
  | h t n s sets sub ih =>
    simp only [merge]
    cases hm : mergeSettings false sets (b, none) with
    | mk b' u' =>
      rw [erase_mergeSubs sub (fun c hc b => ih c hc b)]
      have := erase_mergeSettings sets b none
      rw [hm] at this
      exact this

/-- C13: a setting of the target that also exists in the source gets the source's values,
every other one keeps its own; nothing new is defined. -/
theorem C13_values (c b : Block) (hc : c.Uniq) (p : List (Nat × Str)) (n : Str) :
    (merge false c b).1.valuesAt p n =
      match b.valuesAt p n with
      | none => none
      | some v =>
        match c.valuesAt p n with
        | some w => some w
        | none => some v := by
  rw [merge_values false c b hc]
  cases b.valuesAt p n with
  | none => simp
  | some v => cases c.valuesAt p n <;> simp

theorem find_snoc (c : Block) (p : List (Nat × Str)) (k : Nat × Str) :
    c.find (p ++ [k]) = (c.find p).bind (fun d => d.sub? k) := by
  induction p generalizing c with
  | nil =>
    rw [List.nil_append, find_cons']
    cases h : c.sub? k <;> simp [Block.find, h]
  | cons q p ih =>
    rw [List.cons_append, find_cons', find_cons']
    cases c.sub? q with
    | none => rfl
    | some d => simp [ih]

/-- C13: the reported names are exactly the names of source settings missing in an existing
target block and of source blocks missing in an existing target block. -/
theorem C13_reported_names (c b : Block) (hc : c.Uniq) (m : Str) :
    m ∈ ((merge false c b).2.getD []) ↔
      (∃ p, (b.find p).isSome ∧ (c.valuesAt p m).isSome ∧ b.valuesAt p m = none) ∨
      (∃ p t, (b.find p).isSome ∧ (c.find (p ++ [(t, m)])).isSome ∧ b.find (p ++ [(t, m)]) = none) := by
  change m ∈ names _ ↔ _
  constructor
  · intro h
    induction c using Block.ind generalizing b with
    | h t n s sets sub ih =>
      rw [merge_unknown _ b hc] at h
      rcases h with ⟨x, hx, rfl, hb⟩ | ⟨x, hx, h⟩
      · left
        refine ⟨[], rfl, ?_, ?_⟩
        · rw [← hasSetting_iff]
          simp only [hasSetting, List.any_eq_true]
          exact ⟨x, hx, by simp⟩
        · rw [hasSetting_iff] at hb
          cases hv : b.valuesAt [] x.name with
          | none => rfl
          | some v => rw [hv] at hb; cases hb
      · have hxc : (Block.mk t n s sets sub).sub? x.key = some x := by
          obtain ⟨-, h2, -⟩ := hc.elim
          rw [sub?_eq]
          change List.find? _ sub = _
          simp only [subs] at hx h2
          clear hc ih h
          induction sub with
          | nil => simp at hx
          | cons y l ih =>
            simp only [List.map_cons, List.nodup_cons] at h2
            rcases List.mem_cons.1 hx with rfl | hx
            · simp
            · have : ¬ y.key = x.key := by
                intro e
                exact h2.1 (e ▸ List.mem_map.2 ⟨x, hx, rfl⟩)
              simp [this, ih hx h2.2]
        rcases h with ⟨hb, rfl⟩ | ⟨d, hb, hm⟩
        · right
          refine ⟨[], x.ty, rfl, ?_, ?_⟩
          · rw [List.nil_append, find_cons', show (x.ty, x.name) = x.key from rfl, hxc]; rfl
          · rw [List.nil_append, find_cons', show (x.ty, x.name) = x.key from rfl, hb]; rfl
        · rcases ih x hx d (hc.elim.2.2 x hx) hm with ⟨p, h1, h2, h3⟩ | ⟨p, t', h1, h2, h3⟩
          · left
            refine ⟨x.key :: p, ?_, ?_, ?_⟩
            · rw [find_cons', hb]; exact h1
            · rw [valuesAt_cons', hxc]; exact h2
            · rw [valuesAt_cons', hb]; exact h3
          · right
            refine ⟨x.key :: p, t', ?_, ?_, ?_⟩
            · rw [find_cons', hb]; exact h1
            · rw [List.cons_append, find_cons', hxc]; exact h2
            · rw [List.cons_append, find_cons', hb]; exact h3
  · have key : ∀ p, ∀ (c b : Block), c.Uniq → (b.find p).isSome →
        ((c.valuesAt p m).isSome ∧ b.valuesAt p m = none ∨
          ∃ t, (c.find (p ++ [(t, m)])).isSome ∧ b.find (p ++ [(t, m)]) = none) →
        m ∈ names (merge false c b).2 := by
      intro p
      induction p with
      | nil =>
        intro c b hc _ h
        rw [merge_unknown c b hc]
        rcases h with ⟨h1, h2⟩ | ⟨t, h1, h2⟩
        · left
          rw [← hasSetting_iff] at h1
          simp only [hasSetting, List.any_eq_true] at h1
          obtain ⟨x, hx, e⟩ := h1
          refine ⟨x, hx, by simpa using e, ?_⟩
          rw [hasSetting_iff, h2]; rfl
        · right
          rw [List.nil_append, find_cons'] at h1 h2
          cases hs : c.sub? (t, m) with
          | none => rw [hs] at h1; cases h1
          | some x =>
            have hk := sub?_key hs
            refine ⟨x, sub?_mem hs, .inl ⟨?_, ?_⟩⟩
            · rw [hk]
              cases hb : b.sub? (t, m) with
              | none => rfl
              | some y => rw [hb] at h2; cases h2
            · have := congrArg Prod.snd hk
              exact this
      | cons k p ih =>
        intro c b hc hb h
        rw [merge_unknown c b hc]
        right
        rw [find_cons'] at hb
        cases hbs : b.sub? k with
        | none => rw [hbs] at hb; cases hb
        | some d =>
          rw [hbs] at hb
          cases hcs : c.sub? k with
          | none =>
            exfalso
            rcases h with ⟨h1, -⟩ | ⟨t, h1, -⟩
            · rw [valuesAt_cons', hcs] at h1; cases h1
            · rw [List.cons_append, find_cons', hcs] at h1; cases h1
          | some x =>
            refine ⟨x, sub?_mem hcs, .inr ⟨d, by rw [sub?_key hcs]; exact hbs, ?_⟩⟩
            apply ih x d (uniq_sub? hc hcs) hb
            rcases h with ⟨h1, h2⟩ | ⟨t, h1, h2⟩
            · left
              rw [valuesAt_cons', hcs] at h1
              rw [valuesAt_cons', hbs] at h2
              exact ⟨h1, h2⟩
            · right
              rw [List.cons_append, find_cons', hcs] at h1
              rw [List.cons_append, find_cons', hbs] at h2
              exact ⟨t, h1, h2⟩
    rintro (⟨p, h1, h2, h3⟩ | ⟨p, t, h1, h2, h3⟩)
    · exact key p c b hc h1 (.inl ⟨h2, h3⟩)
    · exact key p c b hc h1 (.inr ⟨t, h2, h3⟩)

/-- C13: the null pointer is returned exactly when there is no unknown name. -/
theorem C13_null_iff_all_known (c b : Block) :
    (merge false c b).2 = none ↔ ((merge false c b).2.getD []) = [] := by
  have := (merge_ne false c b).1
  cases h : (merge false c b).2 with
  | none => simp
  | some l => rw [h] at this; simpa using this

/-- C14: merging with `allowNew = true` gives the right-biased union of the settings of
both, and returns the null pointer. -/
theorem C14_right_biased_union (c b : Block) (hc : c.Uniq) :
    (merge true c b).2 = none ∧ ∀ (p : List (Nat × Str)) (n : Str),
      (merge true c b).1.valuesAt p n =
        match c.valuesAt p n with
        | some w => some w
        | none => b.valuesAt p n := by
  refine ⟨(merge_ne true c b).2 rfl, ?_⟩
  intro p n
  rw [merge_values true c b hc]
  cases c.valuesAt p n <;> simp

/-- C14: the blocks of the result are those of both. -/
theorem C14_blocks_union (c b : Block) (hc : c.Uniq) (p : List (Nat × Str)) :
    ((merge true c b).1.find p).isSome = ((c.find p).isSome || (b.find p).isSome) :=
  merge_find c b hc p

/-- Trees for the examples: target `a = 1; t x { u = 2; }`, source
`a = 3; b = 4; t x { v = 5; } t y { }`. -/
def exTarget : Block :=
  .mk 0 "<root>".toList [] [⟨['a'], [['1']], false⟩] [.mk 1 ['x'] [] [⟨['u'], [['2']], false⟩] []]
def exSource : Block :=
  .mk 0 "<root>".toList [] [⟨['a'], [['3']], false⟩, ⟨['b'], [['4']], false⟩]
    [.mk 1 ['x'] [] [⟨['v'], [['5']], false⟩] [], .mk 1 ['y'] [] [] []]

theorem exSource_uniq : exSource.Uniq := by
  refine .mk (by decide) (by decide) ?_
  intro c hc
  simp only [List.mem_cons, List.not_mem_nil, or_false] at hc
  rcases hc with rfl | rfl
  · exact .mk (by decide) (by decide) (by simp)
  · exact .mk (by decide) (by decide) (by simp)

example : (merge false exSource exTarget).2 = some [['b'], ['v'], ['y']] ∧
    (merge false exSource exTarget).1.valuesAt [] ['a'] = some [['3']] ∧
    (merge true exSource exTarget).1.valuesAt [(1, ['x'])] ['v'] = some [['5']] ∧
    (merge true exSource exTarget).1.valuesAt [(1, ['x'])] ['u'] = some [['2']] := by
  simp only [exSource, exTarget, merge]
  decide

end Softlib
