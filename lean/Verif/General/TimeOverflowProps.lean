/-
Property C85 (estimates) with 64-bit arithmetic.
-/
import Verif.General.TimeOverflowModel
import Verif.General.TimeTextProps

namespace Softlib
open Softlib.General

/-- `v` is a value of `long long int`. -/
def Fits64 (v : Int) : Prop := -9223372036854775808 ≤ v ∧ v ≤ 9223372036854775807

theorem General.fit64_pos {v : Int} {k : Int → Est} (h : Fits64 v) : fit64 v k = k v := if_pos h
theorem General.fit64_neg {v : Int} {k : Int → Est} (h : ¬ Fits64 v) : fit64 v k = .overflow := if_neg h

theorem General.remaining_ge (dt b : Int) (k : Nat) (hb : 0 ≤ b) : k * dt ≤ remaining dt b k := by
  have := remaining_closed dt b k
  have h2 : 0 ≤ (k : Int) * (k + 1) * b := Int.mul_nonneg (Int.mul_nonneg (by omega) (by omega)) hb
  have e : 2 * (k : Int) * dt = 2 * (k * dt) := Int.mul_assoc _ _ _
  omega

/-- C85 in 64-bit arithmetic, exactly: from the second line on the estimate is the sum of the remaining
blocks if three numbers fit into 64 bits, and undefined otherwise: the number of pairs of remaining
lines, the product of the last block's time and its growth, and the estimate itself. -/
theorem C85_overflow_iff (nprint i dt dt1 : Int) (k : Nat) (hk : nprint - i = k) (hi : 2 ≤ i)
    (hn : nprint ≤ 9223372036854775807) (h0 : 0 ≤ dt) (h0' : dt ≤ 9223372036854775807) (h1 : 0 ≤ dt1)
    (h1' : dt1 ≤ 9223372036854775807) :
    let g := if dt1 ≤ dt then dt - dt1 else 0
    ((k : Int) * (k + 1) ≤ 2 * 9223372036854775807 ∧ Fits64 ((dt - dt1) * dt) ∧ Fits64 (remaining dt g k) →
      estimate64 nprint (some dt1) i dt = .ok (remaining dt g k)) ∧
    (¬ ((k : Int) * (k + 1) ≤ 2 * 9223372036854775807 ∧ Fits64 ((dt - dt1) * dt) ∧ Fits64 (remaining dt g k)) →
      estimate64 nprint (some dt1) i dt = .overflow) := by
  intro g
  have hg0 : 0 ≤ g := by show 0 ≤ if dt1 ≤ dt then dt - dt1 else 0; split <;> omega
  have hr := remaining_closed dt g k
  have hge := remaining_ge dt g k hg0
  have hh := half_product k
  have hkd : 0 ≤ (k : Int) * dt := Int.mul_nonneg (by omega) h0
  have e2 : 2 * (k : Int) * dt = 2 * (k * dt) := Int.mul_assoc _ _ _
  unfold estimate64
  simp only [hk]
  rw [fit64_pos (v := (k : Int)) ⟨by omega, by omega⟩]
  generalize hP : (fun N1 : Int => if Int.tmod (k : Int) 2 = 0 then Int.tdiv (k : Int) 2 * N1
      else (k : Int) * Int.tdiv N1 2) = P
  have hP1 : (if Int.tmod (k : Int) 2 = 0 then Int.tdiv (k : Int) 2 * ((k : Int) + 1)
      else (k : Int) * Int.tdiv ((k : Int) + 1) 2) = P (k + 1) := by rw [← hP]
  rw [hP1] at hh
  have hkk : 0 ≤ (k : Int) * (k + 1) := Int.mul_nonneg (by omega) (by omega)
  by_cases hE : Fits64 ((k : Int) * dt)
  · rw [fit64_pos hE, if_pos hi]
    rw [fit64_pos (v := dt - dt1) ⟨by omega, by omega⟩, fit64_pos (v := (k : Int) + 1) ⟨by omega, by omega⟩, hP1]
    by_cases hN : (k : Int) * (k + 1) ≤ 2 * 9223372036854775807
    · rw [fit64_pos (v := P (k + 1)) ⟨by omega, by omega⟩]
      by_cases hT : Fits64 ((dt - dt1) * dt)
      · rw [fit64_pos hT]
        by_cases hd : dt1 < dt
        · have hpos : (dt - dt1) * dt > 0 := Int.mul_pos (by omega) (by omega)
          have eg : g = dt - dt1 := if_pos (by omega)
          rw [if_pos hpos, ← eg]
          have e3 : (k : Int) * (k + 1) * g = 2 * (P (k + 1) * g) := by rw [← hh, Int.mul_assoc]
          have hPg : 0 ≤ P (k + 1) * g := Int.mul_nonneg (by omega) hg0
          have er : (k : Int) * dt + P (k + 1) * g = remaining dt g k := by omega
          rw [← eg] at hT
          refine ⟨fun h => ?_, fun h => ?_⟩
          · obtain ⟨-, -, hf⟩ := h
            rw [fit64_pos (v := P (k + 1) * g) ⟨by omega, by have := hf.2; omega⟩, er, fit64_pos hf]
          · have hf : ¬ Fits64 (remaining dt g k) := fun hf => h ⟨hN, hT, hf⟩
            by_cases hu : Fits64 (P (k + 1) * g)
            · rw [fit64_pos hu, er, fit64_neg hf]
            · rw [fit64_neg hu]
        · have hneg : ¬ (dt - dt1) * dt > 0 := by
            have : (dt - dt1) * dt ≤ 0 := Int.mul_nonpos_of_nonpos_of_nonneg (by omega) h0
            omega
          have eg : g = 0 := by show (if dt1 ≤ dt then dt - dt1 else 0) = 0; split <;> omega
          rw [if_neg hneg]
          rw [eg, Int.mul_zero] at hr
          rw [eg]
          have er : (k : Int) * dt = remaining dt 0 k := by omega
          rw [er]
          refine ⟨fun _ => rfl, fun h => ?_⟩
          rw [er] at hE
          exact absurd ⟨hN, hT, hE⟩ h
      · rw [fit64_neg hT]
        exact ⟨fun h => absurd h.2.1 hT, fun _ => rfl⟩
    · rw [fit64_neg (v := P (k + 1)) (fun h => by have := h.2; omega)]
      exact ⟨fun h => absurd h.1 hN, fun _ => rfl⟩
  · rw [fit64_neg hE]
    refine ⟨fun h => ?_, fun _ => rfl⟩
    obtain ⟨-, -, hf⟩ := h
    exact absurd ⟨by omega, by have := hf.2; omega⟩ hE

/-- C85: with the first line the estimate is the product, if it fits. -/
theorem C85_overflow_first (nprint i dt : Int) (dt1 : Option Int) (hi : i < 2) (h : Fits64 (nprint - i)) :
    (Fits64 ((nprint - i) * dt) → estimate64 nprint dt1 i dt = .ok ((nprint - i) * dt)) ∧
    (¬ Fits64 ((nprint - i) * dt) → estimate64 nprint dt1 i dt = .overflow) := by
  unfold estimate64
  rw [fit64_pos h]
  exact ⟨fun hf => by rw [fit64_pos hf, if_neg (by omega)], fun hf => by rw [fit64_neg hf]⟩

/-- C85: with up to a million lines and blocks of up to ten million milliseconds (almost three hours)
nothing overflows, and the estimate is that of the unbounded model, also when the time passed so far, up to
ten million years, is added. -/
theorem C85_no_overflow (nprint i dt dt1 total : Int) (k : Nat) (hk : nprint - i = k) (hi : 2 ≤ i)
    (hn : nprint ≤ 1000000) (h0 : 0 ≤ dt) (h0' : dt ≤ 10000000) (h1 : 0 ≤ dt1)
    (h1' : dt1 ≤ 10000000) (ht : 0 ≤ total) (ht' : total ≤ 315360000000000000) :
    ∃ v, (estimateDet nprint ⟨some dt1, none⟩ i dt).1 = some v ∧
      estimate64 nprint (some dt1) i dt = .ok v ∧
      total64 (estimate64 nprint (some dt1) i dt) total = .ok (v + total) := by
  have hx := (C85_overflow_iff nprint i dt dt1 k hk hi (by omega) h0 (by omega) h1 (by omega)).1
  have he := C85_estimate_exact nprint ⟨some dt1, none⟩ i dt dt1 k hk hi rfl h0 h1
  generalize hg : (if dt1 ≤ dt then dt - dt1 else 0) = g at hx he
  have hg0 : 0 ≤ g := by rw [← hg]; split <;> omega
  have hg1 : g ≤ 10000000 := by rw [← hg]; split <;> omega
  have hr := remaining_closed dt g k
  have hge := remaining_ge dt g k hg0
  have hk1 : (k : Int) ≤ 1000000 := by omega
  have hkd0 : 0 ≤ (k : Int) * dt := Int.mul_nonneg (by omega) h0
  have hkd : (k : Int) * dt ≤ 1000000 * 10000000 := Int.mul_le_mul hk1 h0' h0 (by omega)
  have hkk : (k : Int) * (k + 1) ≤ 1000000 * 1000001 := Int.mul_le_mul hk1 (by omega) (by omega) (by omega)
  have hkk0 : 0 ≤ (k : Int) * (k + 1) := Int.mul_nonneg (by omega) (by omega)
  have hkg : (k : Int) * (k + 1) * g ≤ 1000000 * 1000001 * 10000000 := Int.mul_le_mul hkk hg1 hg0 (by omega)
  have e2 : 2 * (k : Int) * dt = 2 * (k * dt) := Int.mul_assoc _ _ _
  have hv : remaining dt g k ≤ 5100000000000000000 := by omega
  have hfit : Fits64 ((dt - dt1) * dt) := by
    constructor
    · have : (dt1 - dt) * dt ≤ 10000000 * 10000000 := by
        by_cases hc : dt1 ≤ dt
        · have := Int.mul_nonpos_of_nonpos_of_nonneg (a := dt1 - dt) (b := dt) (by omega) h0
          omega
        · exact Int.mul_le_mul (by omega) h0' h0 (by omega)
      have e : (dt - dt1) * dt = -((dt1 - dt) * dt) := by rw [← Int.neg_mul]; congr 1; omega
      omega
    · have : (dt - dt1) * dt ≤ 10000000 * 10000000 := by
        by_cases hc : dt ≤ dt1
        · have := Int.mul_nonpos_of_nonpos_of_nonneg (a := dt - dt1) (b := dt) (by omega) h0
          omega
        · exact Int.mul_le_mul (by omega) h0' h0 (by omega)
      omega
  have hx' := hx ⟨by omega, hfit, ⟨by omega, by omega⟩⟩
  refine ⟨remaining dt g k, he, hx', ?_⟩
  rw [hx']
  simp only [total64]
  rw [fit64_pos ⟨by omega, by omega⟩]

/-- C85 in 64-bit arithmetic is false for long blocks: if the first of two blocks takes no time and the second
one 40 days, the estimate shown with the last line, which should be zero, overflows. -/
theorem C85_refuted_overflow : estimate64 2 (some 0) 2 (40 * 86400000) = .overflow ∧
    (estimateDet 2 ⟨some 0, none⟩ 2 (40 * 86400000)).1 = some 0 := by
  decide

/-- With 35 days it does not. -/
example : estimate64 2 (some 0) 2 (35 * 86400000) = .ok 0 := by decide
example : estimate64 10 (some 100) 4 150 = .ok 1950 := by decide
example : estimate64 10 none 4 150 = .unset := by decide

end Softlib
