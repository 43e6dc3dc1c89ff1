/-
Multi-dimensional arrays: model and property C25.

Source: /repo/src/SFile/SFile.cpp 97-124 (`GetMultiArray`).

Memory is a list of blocks (one per `new`), a cell holds a number or an address, and an
address is a block number with an offset in cells (pointers and doubles have the same size,
which line 117 relies on).  `sfilesize_t` is 64 bits wide.
-/

namespace Softlib.SFile

abbrev Addr := Nat × Nat

inductive Cell (α : Type) where
  | num (a : α)
  | ptr (p : Addr)

abbrev Mem (α : Type) := List (List (Cell α))

def load {α : Type} (m : Mem α) (p : Addr) : Option (Cell α) := (m[p.1]?).bind (fun b => b[p.2]?)

/-- The pointer loop, SFile.cpp 110-121, entered with loop variable `i`; `none` is undefined
behaviour (reading `dims` outside its bounds, dividing by zero). -/
def build {α : Type} (dims : List Nat) : Nat → Nat → Addr → Mem α → Option (Addr × Mem α)
  | i, nel, p, m =>
    match dims[(i + 1) % 2 ^ 64]? with
    | none => none
    | some 0 => none
    | some n@(_ + 1) =>
      let nel' := nel / n
      let m' := m ++ [(List.range nel').map (fun j => Cell.ptr (p.1, p.2 + j * n))]
      let p' : Addr := (m.length, 0)
      match i with
      | 0 => some (p', m')
      | k + 1 => build dims k nel' p' m'

/-- `GetMultiArray` after `GetMultiArray_linear` delivered the elements `data`; `dims` is the
caller's array, of which the first `ndims` entries have been set. -/
def getMultiArray {α : Type} (data : List α) (ndims : Nat) (dims : List Nat) :
    Option (Addr × Mem α) :=
  let nel := (dims.take ndims).foldl (fun a d => a * d % 2 ^ 64) 1
  build dims ((ndims + 2 ^ 64 - 2) % 2 ^ 64) nel (0, 0) [data.map Cell.num]

/-- Follow the remaining indices from the cell at `p`. -/
def chase {α : Type} (m : Mem α) : Addr → List Nat → Option α
  | p, [] =>
    match load m p with
    | some (.num a) => some a
    | _ => none
  | p, i :: is =>
    match load m p with
    | some (.ptr q) => chase m (q.1, q.2 + i) is
    | _ => none

/-- `arr[i1][i2]...[in]` as the caller writes it; `none` is undefined behaviour. -/
def nestedGet {α : Type} (r : Addr × Mem α) : List Nat → Option α
  | [] => none
  | i :: is => chase r.2 (r.1.1, r.1.2 + i) is

end Softlib.SFile

namespace Softlib

open Softlib.SFile

/-- Row-major position, starting from the position `q` in the leading dimensions. -/
def rowMajorFrom (q : Nat) : List Nat → List Nat → Nat
  | d :: ds, i :: is => rowMajorFrom (q * d + i) ds is
  | _, _ => q

/-- Row-major position of an index. -/
def rowMajor (dims is : List Nat) : Nat := rowMajorFrom 0 dims is

/-- The index has one entry per dimension, each below the extent. -/
inductive InBounds : List Nat → List Nat → Prop where
  | nil : InBounds [] []
  | cons {d i ds is} : i < d → InBounds ds is → InBounds (d :: ds) (i :: is)

def prodL (l : List Nat) : Nat := l.foldr (· * ·) 1

theorem load_append {α : Type} {m : Mem α} {p : Addr} {c : Cell α} (b) (h : load m p = some c) :
    load (m ++ b) p = some c := by
  unfold load at h ⊢
  cases hm : m[p.1]? with
  | none => rw [hm] at h; cases h
  | some x =>
    have hlt : p.1 < m.length := by
      rcases Nat.lt_or_ge p.1 m.length with h | h
      · exact h
      · rw [List.getElem?_eq_none h] at hm; cases hm
    rw [List.getElem?_append_left hlt, hm]
    rw [hm] at h
    exact h

theorem chase_append {α : Type} {m : Mem α} (b) (is : List Nat) : ∀ {p : Addr} {a : α},
    chase m p is = some a → chase (m ++ b) p is = some a := by
  induction is with
  | nil =>
    intro p a h
    unfold chase at h ⊢
    split at h
    · rename_i x hx
      rw [load_append b hx]; exact h
    · cases h
  | cons i is ih =>
    intro p a h
    unfold chase at h ⊢
    split at h
    · rename_i x hx
      rw [load_append b hx]
      exact ih h
    · cases h

/-- What is known of the current pointer: it points to `nel` cells, from which the remaining
dimensions `ds` can be indexed. -/
def Inv {α : Type} (data : List α) (ds : List Nat) (nel : Nat) (p : Addr) (m : Mem α) : Prop :=
  ∀ q, q < nel → ∀ is, InBounds ds is →
    ∃ a, data[rowMajorFrom q ds is]? = some a ∧ chase m (p.1, p.2 + q) is = some a

theorem inv_step {α : Type} {data : List α} {ds : List Nat} {nel n : Nat} {p : Addr} {m : Mem α}
    (h : Inv data ds (nel * n) p m) :
    Inv data (n :: ds) nel (m.length, 0)
      (m ++ [(List.range nel).map (fun j => Cell.ptr (p.1, p.2 + j * n))]) := by
  intro q hq is hb
  cases hb with
  | @cons _ i _ is hi hb =>
    have hlt : q * n + i < nel * n := by
      have : (q + 1) * n ≤ nel * n := Nat.mul_le_mul_right n hq
      rw [Nat.add_mul, Nat.one_mul] at this
      omega
    obtain ⟨a, ha, hc⟩ := h (q * n + i) hlt is hb
    refine ⟨a, ha, ?_⟩
    unfold chase
    have hl : load (m ++ [(List.range nel).map (fun j => (Cell.ptr (p.1, p.2 + j * n) : Cell α))])
        (m.length, 0 + q) = some (.ptr (p.1, p.2 + q * n)) := by
      unfold load
      simp only [List.getElem?_append_right (Nat.le_refl _), Nat.sub_self, Nat.zero_add]
      show ((List.range nel).map _)[q]? = _
      rw [List.getElem?_map, List.getElem?_range hq]
      rfl
    simp only [hl]
    have := chase_append [(List.range nel).map (fun j => (Cell.ptr (p.1, p.2 + j * n) : Cell α))] is hc
    rw [show p.2 + q * n + i = p.2 + (q * n + i) from by omega]
    exact this

theorem prodL_append (a b : List Nat) : prodL (a ++ b) = prodL a * prodL b := by
  induction a with
  | nil => simp [prodL]
  | cons x a ih =>
    have : prodL (x :: (a ++ b)) = x * prodL (a ++ b) := rfl
    rw [List.cons_append, this, ih, ← Nat.mul_assoc]
    rfl

theorem build_spec {α : Type} (data : List α) (dims : List Nat) (hpos : ∀ d ∈ dims, 0 < d)
    (hlen : dims.length < 2 ^ 64) :
    ∀ (i : Nat) (p : Addr) (m : Mem α), i + 1 < dims.length →
      Inv data (dims.drop (i + 2)) (prodL (dims.take (i + 2))) p m →
      ∃ p' m', build dims i (prodL (dims.take (i + 2))) p m = some (p', m') ∧
        Inv data (dims.drop 1) (prodL (dims.take 1)) p' m' := by
  intro i
  induction i with
  | zero =>
    intro p m hi hinv
    obtain ⟨n, hn⟩ : ∃ n, dims[1]? = some n := ⟨dims[1], List.getElem?_eq_getElem hi⟩
    have hnpos : 0 < n := hpos n (List.mem_of_getElem? hn)
    obtain ⟨k, rfl⟩ : ∃ k, n = k + 1 := ⟨n - 1, by omega⟩
    have htake : dims.take 2 = dims.take 1 ++ [k + 1] := by
      rw [List.take_add_one, hn]; rfl
    have hdrop : dims.drop 1 = (k + 1) :: dims.drop 2 := by
      rw [List.drop_eq_getElem_cons hi]
      rw [List.getElem?_eq_getElem hi] at hn
      rw [Option.some.inj hn]
    have hprod : prodL (dims.take 2) = prodL (dims.take 1) * (k + 1) := by
      rw [htake, prodL_append]; simp [prodL]
    unfold build
    rw [show (0 + 1) % 2 ^ 64 = 1 from by omega, hn]
    refine ⟨_, _, rfl, ?_⟩
    simp only [Nat.zero_add] at hinv ⊢
    rw [hprod] at hinv ⊢
    simp only [Nat.mul_div_cancel _ (Nat.succ_pos k)]
    rw [hdrop]
    exact inv_step hinv
  | succ i ih =>
    intro p m hi hinv
    obtain ⟨n, hn⟩ : ∃ n, dims[i + 2]? = some n := ⟨dims[i + 2], List.getElem?_eq_getElem hi⟩
    have hnpos : 0 < n := hpos n (List.mem_of_getElem? hn)
    obtain ⟨k, rfl⟩ : ∃ k, n = k + 1 := ⟨n - 1, by omega⟩
    have htake : dims.take (i + 3) = dims.take (i + 2) ++ [k + 1] := by
      rw [List.take_add_one, hn]; rfl
    have hdrop : dims.drop (i + 2) = (k + 1) :: dims.drop (i + 3) := by
      rw [List.drop_eq_getElem_cons hi]
      rw [List.getElem?_eq_getElem hi] at hn
      rw [Option.some.inj hn]
    have hprod : prodL (dims.take (i + 3)) = prodL (dims.take (i + 2)) * (k + 1) := by
      rw [htake, prodL_append]; simp [prodL]
    unfold build
    rw [show (i + 1 + 1) % 2 ^ 64 = i + 2 from Nat.mod_eq_of_lt (by omega), hn]
    rw [show i + 1 + 2 = i + 3 from rfl] at hinv ⊢
    rw [hprod] at hinv ⊢
    simp only [Nat.mul_div_cancel _ (Nat.succ_pos k)]
    apply ih
    · omega
    · rw [hdrop]
      exact inv_step hinv

theorem foldl_mod_prod (l : List Nat) : ∀ a, (∀ d ∈ l, 0 < d) → a * prodL l < 2 ^ 64 → 0 < a →
    l.foldl (fun a d => a * d % 2 ^ 64) a = a * prodL l := by
  induction l with
  | nil => intro a _ _ _; simp [prodL]
  | cons d l ih =>
    intro a hp h ha
    have e : a * prodL (d :: l) = a * d * prodL l := by
      rw [Nat.mul_assoc]; rfl
    have hpl : 0 < prodL l := by
      clear ih h e
      induction l with
      | nil => decide
      | cons x l ih =>
        exact Nat.mul_pos (hp x (by simp)) (ih (fun d hd => by
          rcases List.mem_cons.1 hd with rfl | hd
          · exact hp d (by simp)
          · exact hp d (by simp [hd])))
    have hd : 0 < d := hp d (by simp)
    have hle : a * d < 2 ^ 64 := by
      rw [e] at h
      exact Nat.lt_of_le_of_lt (Nat.le_mul_of_pos_right _ hpl) h
    rw [List.foldl_cons, Nat.mod_eq_of_lt hle, e]
    exact ih (a * d) (fun x hx => hp x (by simp [hx])) (by rw [← e]; exact h) (Nat.mul_pos ha hd)

/-- C25: for two or more dimensions, all extents positive, the nested view gives at every
index within bounds the element at the row-major position, using only memory that exists.
Missing: one dimension, and extents of zero, where the code has undefined behaviour. -/
theorem C25_row_major_partial {α : Type} (data : List α) (dims : List Nat)
    (h2 : 2 ≤ dims.length) (hl : dims.length < 2 ^ 64) (hpos : ∀ d ∈ dims, 0 < d)
    (hdata : data.length = prodL dims) (hsize : prodL dims < 2 ^ 64) :
    ∃ r, getMultiArray data dims.length dims = some r ∧
      ∀ is, InBounds dims is →
        ∃ a, data[rowMajor dims is]? = some a ∧ nestedGet r is = some a := by
  obtain ⟨k, hk⟩ : ∃ k, dims.length = k + 2 := ⟨dims.length - 2, by omega⟩
  have hnel : (dims.take dims.length).foldl (fun a d => a * d % 2 ^ 64) 1 = prodL (dims.take (k + 2)) := by
    rw [← hk, List.take_length, foldl_mod_prod _ _ hpos (by rw [Nat.one_mul]; exact hsize) (by decide),
      Nat.one_mul]
  have hstart : (dims.length + 2 ^ 64 - 2) % 2 ^ 64 = k := by
    rw [hk]; omega
  have hinv : Inv data (dims.drop (k + 2)) (prodL (dims.take (k + 2))) (0, 0) [data.map Cell.num] := by
    rw [← hk, List.take_length, List.drop_length]
    intro q hq is hb
    cases hb
    rw [← hdata] at hq
    refine ⟨data[q], List.getElem?_eq_getElem hq, ?_⟩
    have hl : load [data.map Cell.num] (0, 0 + q) = some (Cell.num data[q]) := by
      unfold load
      simp only [Nat.zero_add]
      show (data.map Cell.num)[q]? = _
      rw [List.getElem?_map, List.getElem?_eq_getElem hq]
      rfl
    unfold chase
    simp only [hl]
  obtain ⟨p, m, hbuild, hI⟩ := build_spec data dims hpos hl k (0, 0) _ (by omega) hinv
  refine ⟨(p, m), ?_, ?_⟩
  · unfold getMultiArray
    rw [hnel, hstart]
    exact hbuild
  · intro is his
    cases his with
    | nil => simp at h2
    | @cons d i ds is hi hb =>
      have := hI i (by simpa [prodL] using hi) is hb
      simpa [nestedGet, rowMajor, rowMajorFrom] using this

/-- C25: distinct indices within bounds are distinct elements below the total size, so the
view covers the array. -/
theorem C25_positions_in_range (dims is : List Nat) (h : InBounds dims is) :
    rowMajor dims is < prodL dims := by
  have key : ∀ (dims is : List Nat), InBounds dims is → ∀ q, rowMajorFrom q dims is < (q + 1) * prodL dims := by
    intro dims is h
    induction h with
    | nil => intro q; simp [rowMajorFrom, prodL]
    | @cons d i ds is hi _ ih =>
      intro q
      have h1 := ih (q * d + i)
      refine Nat.lt_of_lt_of_le h1 ?_
      show (q * d + i + 1) * prodL ds ≤ (q + 1) * (d * prodL ds)
      rw [← Nat.mul_assoc]
      apply Nat.mul_le_mul_right
      rw [Nat.add_mul, Nat.one_mul]
      omega
  have := key dims is h 0
  simpa [rowMajor] using this

/-- C25: two indices within bounds with the same position are equal. -/
theorem C25_positions_distinct (dims is js : List Nat) (hi : InBounds dims is) (hj : InBounds dims js)
    (h : rowMajor dims is = rowMajor dims js) : is = js := by
  have key : ∀ (dims is : List Nat), InBounds dims is → ∀ js, InBounds dims js → ∀ q q',
      rowMajorFrom q dims is = rowMajorFrom q' dims js → q = q' ∧ is = js := by
    intro dims is h
    induction h with
    | nil =>
      intro js hj q q' e
      cases hj
      exact ⟨e, rfl⟩
    | @cons d i ds is hi _ ih =>
      intro js hj q q' e
      cases hj with
      | @cons _ j _ js hj hjs =>
        obtain ⟨e1, e2⟩ := ih js hjs _ _ e
        have hd : 0 < d := by omega
        have hq : q = q' := by
          have := congrArg (· / d) e1
          simp only [Nat.mul_comm _ d, Nat.mul_add_div hd, Nat.div_eq_of_lt hi, Nat.div_eq_of_lt hj] at this
          simpa using this
        subst hq
        exact ⟨rfl, by rw [e2, show i = j from by omega]⟩
  exact (key dims is hi js hj 0 0 h).2

theorem build_none {α : Type} (dims : List Nat) (k nel : Nat) (p : Addr) (m : Mem α)
    (h : dims[(k + 1) % 2 ^ 64]? = none) : build dims k nel p m = none := by
  unfold build
  rw [h]

theorem build_succ_none {α : Type} (dims : List Nat) (k nel : Nat) (p : Addr) (m : Mem α)
    (h : dims[(k + 1) % 2 ^ 64]? = none) : build dims (k + 1) nel p m = none := by
  unfold build
  split
  · rfl
  · rfl
  · exact build_none _ _ _ _ _ h

/-- C25 as stated is refuted: for a one-dimensional array the loop variable wraps around and
`dims` is read far outside its bounds, whatever the array. -/
theorem C25_refuted {α : Type} (data : List α) (dims : List Nat)
    (hl : dims.length < 2 ^ 64 - 1) : getMultiArray data 1 dims = none := by
  unfold getMultiArray
  rw [show (1 + 2 ^ 64 - 2) % 2 ^ 64 = (2 ^ 64 - 2) + 1 from by decide]
  apply build_succ_none
  rw [show (2 ^ 64 - 2 + 1) % 2 ^ 64 = 2 ^ 64 - 1 from by decide]
  exact List.getElem?_eq_none (by omega)

/-- An extent of zero (other than the first) divides by zero. -/
theorem C25_zero_extent {α : Type} (data : List α) (d : Nat) :
    getMultiArray data 2 [d, 0] = none := by
  unfold getMultiArray
  rw [show (2 + 2 ^ 64 - 2) % 2 ^ 64 = 0 from by decide]
  unfold build
  rfl

/-- A 2x3x2 array: element (1,2,0) is at position 10. -/
example : (getMultiArray (List.range 12) 3 [2, 3, 2]).bind (fun r => nestedGet r [1, 2, 0]) = some 10 := by
  decide +kernel
example : rowMajor [2, 3, 2] [1, 2, 0] = 10 := by decide

end Softlib
