/-
Evaluation of the rounding of `Verif/General/RoundModel.lean` with whole numbers, so that concrete computations in
`double` precision can be checked by the kernel.  Nothing here is a model of the code.
-/
import Verif.General.RoundModel

namespace Softlib.General

/-- The nearest whole number to `n / d`, and of two the even one. -/
def rneDiv (n : ℤ) (d : ℕ) : ℤ :=
  if 2 * (n % d) < d then n / d
  else if (d : ℤ) < 2 * (n % d) then n / d + 1
  else if (n / d) % 2 = 0 then n / d else n / d + 1

theorem rneDiv_eq (n : ℤ) (d : ℕ) (hd : 0 < d) : rne ((n : ℚ) / d) = rneDiv n d := by
  have hf : ⌊(n : ℚ) / d⌋ = n / d := Rat.floor_intCast_div_natCast n d
  have hdq : (0 : ℚ) < d := by exact_mod_cast hd
  have hm : (n : ℚ) / d - ((n / d : ℤ) : ℚ) = ((n % d : ℤ) : ℚ) / d := by
    have h := Int.emod_add_mul_ediv n d
    have h' : (n : ℚ) = ((n % d : ℤ) : ℚ) + d * ((n / d : ℤ) : ℚ) := by exact_mod_cast h.symm
    rw [div_sub' hdq.ne', h']
    congr 1
    have := h'
    push_cast at *
    linarith
  unfold rne rneDiv
  rw [hf, hm]
  have c1 : ((n % d : ℤ) : ℚ) / d < 1 / 2 ↔ 2 * (n % d) < d := by
    rw [div_lt_div_iff₀ hdq (by norm_num)]
    constructor
    · intro h; have : ((2 * (n % d) : ℤ) : ℚ) < ((d : ℤ) : ℚ) := by push_cast; linarith
      exact_mod_cast this
    · intro h; have : ((2 * (n % d) : ℤ) : ℚ) < ((d : ℤ) : ℚ) := by exact_mod_cast h
      push_cast at this; linarith
  have c2 : 1 / 2 < ((n % d : ℤ) : ℚ) / d ↔ (d : ℤ) < 2 * (n % d) := by
    rw [div_lt_div_iff₀ (by norm_num) hdq]
    constructor
    · intro h; have : ((d : ℤ) : ℚ) < ((2 * (n % d) : ℤ) : ℚ) := by push_cast; linarith
      exact_mod_cast this
    · intro h; have : ((d : ℤ) : ℚ) < ((2 * (n % d) : ℤ) : ℚ) := by exact_mod_cast h
      push_cast at this; linarith
  simp only [c1, c2]

/-- The binary logarithm of `n / d`, rounded down. -/
def logDiv (n d : ℕ) : ℤ :=
  let l : ℤ := (Nat.log2 n : ℤ) - Nat.log2 d
  if n * 2 ^ (-l).toNat < d * 2 ^ l.toNat then l - 1 else l

theorem two_zpow_split (l : ℤ) : (2 : ℚ) ^ l * 2 ^ (-l).toNat = 2 ^ l.toNat := by
  rcases le_total 0 l with h | h
  · obtain ⟨k, rfl⟩ := Int.eq_ofNat_of_zero_le h
    simp
  · obtain ⟨k, hk⟩ := Int.eq_ofNat_of_zero_le (show 0 ≤ -l by omega)
    have : l = -(k : ℤ) := by omega
    subst this
    simp

theorem logDiv_eq (n d : ℕ) (hn : 0 < n) (hd : 0 < d) : Int.log 2 ((n : ℚ) / d) = logDiv n d := by
  have hnq : (0 : ℚ) < n := by exact_mod_cast hn
  have hdq : (0 : ℚ) < d := by exact_mod_cast hd
  have hx : (0 : ℚ) < n / d := div_pos hnq hdq
  have n1 : 2 ^ Nat.log2 n ≤ n := Nat.log2_self_le hn.ne'
  have n2 : n < 2 ^ (Nat.log2 n + 1) := Nat.lt_log2_self
  have d1 : 2 ^ Nat.log2 d ≤ d := Nat.log2_self_le hd.ne'
  have d2 : d < 2 ^ (Nat.log2 d + 1) := Nat.lt_log2_self
  unfold logDiv
  simp only
  generalize Nat.log2 n = a at *
  generalize Nat.log2 d = b at *
  have n1q : (2 : ℚ) ^ a ≤ n := by exact_mod_cast n1
  have n2q : (n : ℚ) < 2 ^ (a + 1) := by exact_mod_cast n2
  have d1q : (2 : ℚ) ^ b ≤ d := by exact_mod_cast d1
  have d2q : (d : ℚ) < 2 ^ (b + 1) := by exact_mod_cast d2
  have up : (n : ℚ) / d < 2 ^ ((a : ℤ) - b + 1) := by
    rw [div_lt_iff₀ hdq, show (a : ℤ) - b + 1 = ((a + 1 : ℕ) : ℤ) - (b : ℕ) by push_cast; ring, zpow_sub₀ (by norm_num), zpow_natCast, zpow_natCast]
    have hb : (0 : ℚ) < 2 ^ b := by positivity
    calc (n : ℚ) < 2 ^ (a + 1) := n2q
      _ = 2 ^ (a + 1) / 2 ^ b * 2 ^ b := by field_simp
      _ ≤ _ := mul_le_mul_of_nonneg_left d1q (by positivity)
  have lo : (2 : ℚ) ^ ((a : ℤ) - b - 1) ≤ n / d := by
    rw [le_div_iff₀ hdq, show (a : ℤ) - b - 1 = (a : ℕ) - ((b + 1 : ℕ) : ℤ) by push_cast; ring, zpow_sub₀ (by norm_num), zpow_natCast, zpow_natCast]
    calc (2 : ℚ) ^ a / 2 ^ (b + 1) * d ≤ 2 ^ a / 2 ^ (b + 1) * 2 ^ (b + 1) := mul_le_mul_of_nonneg_left d2q.le (by positivity)
      _ = 2 ^ a := by field_simp
      _ ≤ n := n1q
  have cond : (n * 2 ^ (-((a : ℤ) - b)).toNat < d * 2 ^ ((a : ℤ) - b).toNat) ↔ (n : ℚ) / d < 2 ^ ((a : ℤ) - b) := by
    rw [div_lt_iff₀ hdq]
    have hs := two_zpow_split ((a : ℤ) - b)
    generalize (-((a : ℤ) - b)).toNat = s at *
    generalize ((a : ℤ) - b).toNat = t at *
    have hsp : (0 : ℚ) < 2 ^ s := by positivity
    constructor
    · intro h
      have hq : (n : ℚ) * 2 ^ s < d * 2 ^ t := by exact_mod_cast h
      rw [← hs] at hq
      have : (n : ℚ) * 2 ^ s < 2 ^ ((a : ℤ) - b) * d * 2 ^ s := by linarith
      exact lt_of_mul_lt_mul_right this hsp.le
    · intro h
      have : (n : ℚ) * 2 ^ s < 2 ^ ((a : ℤ) - b) * d * 2 ^ s := mul_lt_mul_of_pos_right h hsp
      have hq : (n : ℚ) * 2 ^ s < d * 2 ^ t := by rw [← hs]; linarith
      exact_mod_cast hq
  split
  · rename_i h
    have h' := cond.1 h
    apply le_antisymm
    · have := (Int.lt_zpow_iff_log_lt (b := 2) (by norm_num) (x := (a : ℤ) - b) hx).1 (by exact_mod_cast h')
      omega
    · exact (Int.zpow_le_iff_le_log (b := 2) (by norm_num) hx).1 (by exact_mod_cast lo)
  · rename_i h
    have h' : (2 : ℚ) ^ ((a : ℤ) - b) ≤ n / d := not_lt.1 (fun hc => h (cond.2 hc))
    apply le_antisymm
    · have := (Int.lt_zpow_iff_log_lt (b := 2) (by norm_num) (x := (a : ℤ) - b + 1) hx).1 (by exact_mod_cast up)
      omega
    · exact (Int.zpow_le_iff_le_log (b := 2) (by norm_num) hx).1 (by exact_mod_cast h')

/-- The rounding, computed. -/
def flQ (p : ℕ) (x : ℚ) : ℚ :=
  if x.num = 0 then 0
  else
    let e : ℤ := logDiv x.num.natAbs x.den - p
    mkRat (rneDiv (x.num * 2 ^ (-e).toNat) (x.den * 2 ^ e.toNat) * 2 ^ e.toNat) (2 ^ (-e).toNat)

theorem flQ_eq (p : ℕ) (x : ℚ) : flBits p x = flQ p x := by
  unfold flQ
  by_cases h0 : x.num = 0
  · rw [if_pos h0]
    have : x = 0 := Rat.num_eq_zero.1 h0
    rw [this, flBits_zero]
  · rw [if_neg h0]
    have hden : 0 < x.den := x.pos
    have hn : 0 < x.num.natAbs := Int.natAbs_pos.2 h0
    have habs : |x| = (x.num.natAbs : ℚ) / x.den := by
      conv_lhs => rw [← Rat.num_div_den x]
      rw [abs_div, Nat.abs_cast, Nat.cast_natAbs, Int.cast_abs]
    have hl : lastExp p x = logDiv x.num.natAbs x.den - p := by
      unfold lastExp
      rw [habs, logDiv_eq _ _ hn hden]
    unfold flBits
    rw [hl]
    simp only
    generalize logDiv x.num.natAbs x.den - (p : ℤ) = e
    have hs := two_zpow_split e
    generalize hsd : (-e).toNat = s at *
    generalize htd : e.toNat = t at *
    have hsp : (0 : ℚ) < 2 ^ s := by positivity
    have htp : (0 : ℚ) < 2 ^ t := by positivity
    have hdq : (0 : ℚ) < x.den := by exact_mod_cast hden
    have he : (2 : ℚ) ^ e = 2 ^ t / 2 ^ s := by rw [eq_div_iff hsp.ne']; exact hs
    have hx : x / 2 ^ e = ((x.num * 2 ^ s : ℤ) : ℚ) / ((x.den * 2 ^ t : ℕ) : ℚ) := by
      conv_lhs => rw [← Rat.num_div_den x, he]
      push_cast
      field_simp
    rw [hx, rneDiv_eq _ _ (by positivity), he, Rat.mkRat_eq_div]
    push_cast
    ring

/-- The same rounding as `rndBits`, computed. -/
def rndQ (p : ℕ) : Rnd (1 / 2 / 2 ^ p) where
  fl := flQ p
  mono := by intro x y h; rw [← flQ_eq, ← flQ_eq]; exact flBits_mono p x y h
  rel := by intro x; rw [← flQ_eq]; exact flBits_rel p x
  idem := by intro x; simp only [← flQ_eq]; exact flBits_idem p x

theorem rndQ_eq (p : ℕ) : rndBits p = rndQ p := by
  unfold rndBits rndQ
  congr 1
  funext x
  exact flQ_eq p x

/-- One third in `double` precision. -/
example : (rndBits 52).fl (1 / 3) = 6004799503160661 / 2 ^ 54 := by
  rw [rndQ_eq]; decide +kernel

end Softlib.General
