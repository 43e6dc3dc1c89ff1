/-
C33: what `A *= B` computes, also when both are the same matrix.

Source: /repo/include/softlib/General/Matrix.tcc 194-206; see `VectorModel.lean`.
-/
import Verif.General.VectorProps

namespace Softlib

open General

variable {α : Type} [Field α]

/-- What the computation of the element at position `p` sees: new values before `p`, old ones after. -/
def seenAt (m m' : Mem α) (p x idx : Nat) : α := if idx < p then m' x idx else m x idx

/-- The state before element `(i, j)` is computed. -/
structure MulState (M N o a : Nat) (m : Mem α) (i j : Nat) (m' : Mem α) : Prop where
  done : ∀ i' j', j' < M → (i' < i ∨ (i' = i ∧ j' < j)) → m' o (i' * N + j') =
    ∑ k ∈ Finset.range N, seenAt m m' (i' * N + j') o (i' * N + k) * seenAt m m' (i' * N + j') a (k * M + j')
  same : ∀ x idx, (x ≠ o ∨ ∀ i' j', j' < M → (i' < i ∨ (i' = i ∧ j' < j)) → idx ≠ i' * N + j') → m' x idx = m x idx

theorem before_lt {M N i j i' j' : Nat} (h : M ≤ N) (hj' : j' < M) (hb : i' < i ∨ (i' = i ∧ j' < j)) :
    i' * N + j' < i * N + j := by
  rcases hb with hb | ⟨rfl, hb⟩
  · have : (i' + 1) * N ≤ i * N := Nat.mul_le_mul_right N hb
    rw [Nat.add_mul, Nat.one_mul] at this
    omega
  · omega

theorem MulState.write {M N o a : Nat} (h : M ≤ N) {m : Mem α} {i j : Nat} {m' : Mem α} (hj : j < M)
    (S : MulState M N o a m i j m') :
    MulState M N o a m i (j + 1) (put m' o (i * N + j)
      ((List.range N).foldl (fun s k => s + m' o (i * N + k) * el m' M a k j) 0)) := by
  have keep : ∀ x idx v, idx < i * N + j → put m' o (i * N + j) v x idx = m' x idx :=
    fun x idx v hl => put_other _ _ (.inr (by omega))
  refine ⟨fun i' j' hj' hb => ?_, fun x idx hn => ?_⟩
  · by_cases e : i' = i ∧ j' = j
    · obtain ⟨rfl, rfl⟩ := e
      rw [put_same, foldl_sum (fun k => m' o (i' * N + k) * el m' M a k j')]
      refine Finset.sum_congr rfl fun k _ => ?_
      have see : ∀ x idx v, seenAt m (put m' o (i' * N + j') v) (i' * N + j') x idx = m' x idx := by
        intro x idx v
        rw [seenAt]
        split_ifs with hl
        · exact keep x idx v hl
        · refine (S.same x idx (.inr fun i'' j'' h1 h2 e => ?_)).symm
          have := before_lt h h1 h2
          omega
      rw [see, see]; rfl
    · have hb' : i' < i ∨ (i' = i ∧ j' < j) := by omega
      have hl := before_lt h hj' hb'
      rw [keep _ _ _ hl, S.done i' j' hj' hb']
      refine Finset.sum_congr rfl fun k _ => ?_
      have see : ∀ x idx v, seenAt m (put m' o (i * N + j) v) (i' * N + j') x idx = seenAt m m' (i' * N + j') x idx := by
        intro x idx v
        rw [seenAt, seenAt]
        split_ifs with h1
        · exact keep x idx v (by omega)
        · rfl
      rw [see, see]
  · rw [put_other _ _ (by
      rcases hn with hn | hn
      · exact .inl hn
      · exact .inr (hn i j hj (.inr ⟨rfl, by omega⟩)))]
    exact S.same x idx (hn.imp id fun hn i' j' h1 h2 => hn i' j' h1 (by omega))

/-- One row. -/
theorem MulState.row {M N o a : Nat} (h : M ≤ N) {m : Mem α} {i : Nat} (hi : i < M) {m' : Mem α}
    (S : MulState M N o a m i 0 m') : ∀ c, c ≤ M → ∃ m'',
      (List.range c).foldlM (fun m j =>
        let sum := (List.range N).foldl (fun s k => s + m o (i * N + k) * el m M a k j) 0
        if i * N + j < M * N then some (put m o (i * N + j) sum) else none) m' = some m'' ∧
      MulState M N o a m i c m'' := by
  intro c
  induction c with
  | zero => exact fun _ => ⟨m', rfl, S⟩
  | succ c ih =>
    intro hc
    obtain ⟨m1, h1, S1⟩ := ih (by omega)
    refine ⟨_, ?_, S1.write h (by omega)⟩
    rw [List.range_succ, List.foldlM_append, h1]
    simp only [Option.bind_eq_bind, Option.bind_some, List.foldlM_cons, List.foldlM_nil]
    rw [if_pos (rowmajor_lt hi (by omega))]
    rfl

/-- C33, `A *= B` for every shape on which it stays inside the object, also with `A` and `B` the same:
element `(i, j)` becomes the sum of products in which everything stored before it, row by row, has its new
value.  Elements in further columns and other objects are unchanged. -/
theorem C33_mul_assign_exact (M N o a : Nat) (h : M ≤ N) (m : Mem α) :
    ∃ m', mmulA M N o a m = some m' ∧
      (∀ i j, i < M → j < M → m' o (i * N + j) =
        ∑ k ∈ Finset.range N, seenAt m m' (i * N + j) o (i * N + k) * seenAt m m' (i * N + j) a (k * M + j)) ∧
      (∀ x idx, (x ≠ o ∨ ∀ i j, i < M → j < M → idx ≠ i * N + j) → m' x idx = m x idx) := by
  have rows : ∀ r, r ≤ M → ∃ m', (List.range r).foldlM (fun m i =>
      (List.range M).foldlM (fun m j =>
        let sum := (List.range N).foldl (fun s k => s + m o (i * N + k) * el m M a k j) 0
        if i * N + j < M * N then some (put m o (i * N + j) sum) else none) m) m = some m' ∧
      MulState M N o a m r 0 m' := by
    intro r
    induction r with
    | zero =>
      exact fun _ => ⟨m, rfl, fun i' j' _ hb => by omega, fun _ _ _ => rfl⟩
    | succ r ih =>
      intro hr
      obtain ⟨m1, h1, S1⟩ := ih (by omega)
      obtain ⟨m2, h2, S2⟩ := S1.row h (by omega) M (Nat.le_refl _)
      refine ⟨m2, ?_, ⟨fun i' j' hj' hb => S2.done i' j' hj' (by omega),
        fun x idx hn => S2.same x idx (hn.imp id fun hn i' j' a b => hn i' j' a (by omega))⟩⟩
      rw [List.range_succ, List.foldlM_append, h1]
      simp only [Option.bind_eq_bind, Option.bind_some, List.foldlM_cons, List.foldlM_nil]
      rw [h2]; rfl
  obtain ⟨m', h1, S⟩ := rows M (Nat.le_refl _)
  exact ⟨m', h1, fun i j hi hj => S.done i j hj (.inl hi),
    fun x idx hn => S.same x idx (hn.imp id fun hn i j a b => hn i j (by omega) a)⟩

/-- C33, `A *= B` is the product when the factor is another matrix that is zero above the diagonal. -/
theorem C33_mul_assign_lower_partial (n o a : Nat) (ho : a ≠ o) (m : Mem α)
    (hB : ∀ k j, k < j → j < n → el m n a k j = 0) :
    ∃ m', mmulA n n o a m = some m' ∧
      MResult m m' o n n (fun i j => ∑ k ∈ Finset.range n, el m n o i k * el m n a k j) := by
  obtain ⟨m', h1, h2, h3⟩ := C33_mul_assign_exact n n o a (Nat.le_refl _) m
  refine ⟨m', h1, fun i j hi hj => ?_, fun x idx hx => h3 x idx (.inl hx)⟩
  show m' o (i * n + j) = _
  rw [h2 i j hi hj]
  refine Finset.sum_congr rfl fun k _ => ?_
  have e : seenAt m m' (i * n + j) a (k * n + j) = el m n a k j := by
    rw [seenAt]
    split_ifs
    · exact h3 a _ (.inl ho)
    · rfl
  rw [e]
  by_cases hk : k < j
  · rw [hB k j hk hj, mul_zero, mul_zero]
  · rw [seenAt, if_neg (by omega)]; rfl

/-- The hypothesis can be met by a matrix that is not diagonal. -/
example : ∃ m : Mem ℚ, (∀ k j, k < j → j < 2 → el m 2 1 k j = 0) ∧ el m 2 1 1 0 ≠ 0 :=
  ⟨fun _ idx => if idx = 1 then 0 else 1, fun k j h1 h2 => by
    obtain ⟨rfl, rfl⟩ : k = 0 ∧ j = 1 := by omega
    rfl, by norm_num [el]⟩

/-- C33, the first column is right whatever the (other) factor. -/
theorem C33_mul_assign_first_column (M N o a : Nat) (h : M ≤ N) (h0 : 0 < M) (ho : a ≠ o) (m : Mem α) :
    ∃ m', mmulA M N o a m = some m' ∧
      ∀ i, i < M → el m' N o i 0 = ∑ k ∈ Finset.range N, el m N o i k * el m M a k 0 := by
  obtain ⟨m', h1, h2, h3⟩ := C33_mul_assign_exact M N o a h m
  refine ⟨m', h1, fun i hi => ?_⟩
  show m' o (i * N + 0) = _
  rw [h2 i 0 hi h0]
  refine Finset.sum_congr rfl fun k _ => ?_
  have e : seenAt m m' (i * N + 0) a (k * M + 0) = el m M a k 0 := by
    rw [seenAt]
    split_ifs
    · exact h3 a _ (.inl ho)
    · rfl
  rw [e, seenAt, if_neg (by omega)]; rfl

/-- C33 as stated is refuted for `A *= A`: with all entries 1 in a 2 × 2 matrix the square has `2`
everywhere, the code gives `2, 3, 3, 10`. -/
theorem C33_mul_assign_self_refuted :
    (mmulA 2 2 0 0 (fun _ _ => (1 : ℚ))).map (fun m => [el m 2 0 0 0, el m 2 0 0 1, el m 2 0 1 0, el m 2 0 1 1]) =
      some [2, 3, 3, 10] := by
  simp [mmulA, el, put, List.range_succ] <;> norm_num

end Softlib
