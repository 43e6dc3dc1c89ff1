/-
Properties C40 and C41: colour maps and image files.
-/
import Verif.Image.ImageModel
import Verif.SFile.SdtLemmas
import Mathlib.Tactic.Linarith
import Mathlib.Tactic.FieldSimp
import Mathlib.Tactic.Ring
import Mathlib.Tactic.NormNum

namespace Softlib

open Softlib.Image Softlib.Config Softlib.SFile

/-! ### C40 -/

section

variable {K : Type} [Field K] [LinearOrder K] [IsStrictOrderedRing K] [FloorRing K]

/-- C40, low values: the first colour.
Missing in all positive statements: values so large that the scaled value does not fit into an
`int` (`C40_refuted_huge`), and `vmax` acts as the width of the range (`C40_refuted`). -/
theorem C40_low_partial (c : Color) (cs : List Color) (vmin vmax v : K) (hv : 0 < vmax) (hlow : v ≤ vmin)
    (hint : -2 ^ 31 ≤ (v - vmin) / vmax * (cs.length : K)) : eval (c :: cs) vmin vmax v = some c := by
  have hi : (v - vmin) / vmax * (cs.length : K) ≤ 0 :=
    mul_nonpos_of_nonpos_of_nonneg (div_nonpos_of_nonpos_of_nonneg (by linarith) hv.le) (Nat.cast_nonneg _)
  have h1 : -2 ^ 31 ≤ ⌊(v - vmin) / vmax * (cs.length : K)⌋ := by
    rw [Int.le_floor]; push_cast; norm_num at hint ⊢; exact hint
  have h2 : ⌊(v - vmin) / vmax * (cs.length : K)⌋ ≤ 0 := by
    have := Int.floor_mono hi
    simpa using this
  unfold eval
  rw [if_neg (by simp; exact hv.ne')]
  simp only [List.length_cons, Nat.add_sub_cancel]
  rw [if_neg (by rw [not_not]; exact ⟨h1, by omega⟩)]
  split
  · rename_i h
    have hc : cs.length = 0 := by push_cast at h; omega
    rw [hc]; rfl
  · rename_i h
    split
    · rfl
    · rename_i h'
      have h0 : ⌊(v - vmin) / vmax * (cs.length : K)⌋ = 0 := by omega
      have hi0 : (v - vmin) / vmax * (cs.length : K) = 0 := by
        apply le_antisymm hi
        have := Int.floor_le ((v - vmin) / vmax * (cs.length : K))
        rw [h0] at this
        simpa using this
      have hne : cs ≠ [] := by
        intro he
        rw [h0, he] at h
        simp at h
      obtain ⟨d, ds, rfl⟩ := List.exists_cons_of_ne_nil hne
      rw [hi0]
      simp [mix]

/-- C40, high values: the last colour. -/
theorem C40_high_partial (cs : List Color) (c : Color) (vmin vmax v : K) (hv : 0 < vmax) (hhigh : vmin + vmax ≤ v)
    (hint : (v - vmin) / vmax * (cs.length : K) < 2 ^ 31) : eval (cs ++ [c]) vmin vmax v = some c := by
  have hi : (cs.length : K) ≤ (v - vmin) / vmax * (cs.length : K) := by
    have : 1 ≤ (v - vmin) / vmax := by rw [le_div_iff₀ hv]; linarith
    nlinarith [Nat.cast_nonneg (α := K) cs.length]
  have h1 : (cs.length : Int) ≤ ⌊(v - vmin) / vmax * (cs.length : K)⌋ := by
    rw [Int.le_floor]; push_cast; exact hi
  have h2 : ⌊(v - vmin) / vmax * (cs.length : K)⌋ < 2 ^ 31 := by
    rw [Int.floor_lt]; push_cast; norm_num at hint ⊢; exact hint
  unfold eval
  rw [if_neg (by simp; exact hv.ne')]
  simp only [List.length_append, List.length_singleton, Nat.add_sub_cancel]
  rw [if_neg (by rw [not_not]; exact ⟨by omega, h2⟩), if_pos (by push_cast; omega)]
  simp

/-- What `eval` does strictly between two neighbouring nodes, or on a node that is not the
last. -/
theorem eval_inside (tab : List Color) (vmin vmax v : K) (k : Nat) (a b : Color) (hv : 0 < vmax)
    (hn : tab.length ≤ 2 ^ 31) (ha : tab[k]? = some a) (hb : tab[k + 1]? = some b)
    (h1 : (k : K) ≤ (v - vmin) / vmax * ((tab.length - 1 : Nat) : K))
    (h2 : (v - vmin) / vmax * ((tab.length - 1 : Nat) : K) < k + 1) :
    eval tab vmin vmax v = some
      (let f := (v - vmin) / vmax * ((tab.length - 1 : Nat) : K) - k
       ⟨mix f a.red b.red, mix f a.green b.green, mix f a.blue b.blue⟩) := by
  have hk : k + 1 < tab.length := (List.getElem?_eq_some_iff.1 hb).1
  have hf : ⌊(v - vmin) / vmax * ((tab.length - 1 : Nat) : K)⌋ = k := by
    rw [Int.floor_eq_iff]; push_cast; exact ⟨h1, h2⟩
  unfold eval
  rw [if_neg (by
    rw [not_or]
    exact ⟨by omega, hv.ne'⟩)]
  simp only [hf]
  rw [if_neg (by rw [not_not]; omega), if_neg (by omega), if_neg (by omega)]
  simp only [Int.toNat_natCast, ha, hb]
  simp

/-- C40, nodes: the `k`-th of the equidistant nodes gives exactly the `k`-th colour. -/
theorem C40_nodes_partial (tab : List Color) (vmin vmax : K) (k : Nat) (c : Color) (hv : 0 < vmax)
    (h2 : 2 ≤ tab.length) (hn : tab.length ≤ 2 ^ 31) (hc : tab[k]? = some c) :
    eval tab vmin vmax (vmin + k * (vmax / ((tab.length - 1 : Nat) : K))) = some c := by
  have hk : k < tab.length := (List.getElem?_eq_some_iff.1 hc).1
  have hpos : (0 : K) < ((tab.length - 1 : Nat) : K) := by
    rw [Nat.cast_pos]; omega
  have hi : (vmin + k * (vmax / ((tab.length - 1 : Nat) : K)) - vmin) / vmax * ((tab.length - 1 : Nat) : K) = k := by
    rw [add_sub_cancel_left]
    field_simp
  rcases Nat.lt_or_ge (k + 1) tab.length with hlt | hge
  · rw [eval_inside tab vmin vmax _ k c tab[k + 1] hv hn hc (by rw [List.getElem?_eq_getElem hlt])
      (by rw [hi]) (by rw [hi]; linarith)]
    simp only [hi, mix]
    simp
  · have hk' : k = tab.length - 1 := by omega
    unfold eval
    rw [if_neg (by
      rw [not_or]
      exact ⟨by omega, hv.ne'⟩)]
    simp only [hi, Int.floor_natCast]
    rw [if_neg (by rw [not_not]; omega), if_pos (by omega), ← hk', hc]

theorem mix_spec (f : K) (a b : Nat) (h0 : 0 ≤ f) (h1 : f ≤ 1) :
    min a b ≤ mix f a b ∧ mix f a b ≤ max a b ∧
    ((mix f a b : Nat) : K) ≤ (1 - f) * a + f * b ∧ (1 - f) * a + f * b < (mix f a b : Nat) + 1 := by
  have hlow : ((min a b : Nat) : K) ≤ (1 - f) * a + f * b := by
    have ha : ((min a b : Nat) : K) ≤ a := by exact_mod_cast min_le_left a b
    have hb : ((min a b : Nat) : K) ≤ b := by exact_mod_cast min_le_right a b
    nlinarith
  have hhigh : (1 - f) * a + f * b ≤ ((max a b : Nat) : K) := by
    have ha : (a : K) ≤ ((max a b : Nat) : K) := by exact_mod_cast le_max_left a b
    have hb : (b : K) ≤ ((max a b : Nat) : K) := by exact_mod_cast le_max_right a b
    nlinarith
  have hnn : (0 : K) ≤ (1 - f) * a + f * b := le_trans (Nat.cast_nonneg _) hlow
  refine ⟨Nat.le_floor hlow, ?_, Nat.floor_le hnn, Nat.lt_floor_add_one _⟩
  have := Nat.floor_mono hhigh
  rwa [Nat.floor_natCast] at this

/-- C40, between nodes: for values inside the range there are neighbouring nodes around the
value, and each channel is the linear interpolation of the two colours cut to an integer, hence
between them. -/
theorem C40_between_partial (tab : List Color) (vmin vmax v : K) (hv : 0 < vmax) (h2 : 2 ≤ tab.length)
    (hn : tab.length ≤ 2 ^ 31) (hlo : vmin ≤ v) (hhi : v < vmin + vmax) :
    ∃ (k : Nat) (a b c : Color) (f : K), tab[k]? = some a ∧ tab[k + 1]? = some b ∧
      eval tab vmin vmax v = some c ∧ 0 ≤ f ∧ f < 1 ∧
      v = vmin + (k + f) * (vmax / ((tab.length - 1 : Nat) : K)) ∧
      ∀ ch ∈ [Color.red, Color.green, Color.blue],
        min (ch a) (ch b) ≤ ch c ∧ ch c ≤ max (ch a) (ch b) ∧
        (ch c : K) ≤ (1 - f) * ch a + f * ch b ∧ (1 - f) * ch a + f * ch b < ch c + 1 := by
  have hpos : (0 : K) < ((tab.length - 1 : Nat) : K) := by
    rw [Nat.cast_pos]; omega
  have hi0 : 0 ≤ (v - vmin) / vmax * ((tab.length - 1 : Nat) : K) :=
    mul_nonneg (div_nonneg (by linarith) hv.le) hpos.le
  have hi1 : (v - vmin) / vmax * ((tab.length - 1 : Nat) : K) < ((tab.length - 1 : Nat) : K) := by
    have : (v - vmin) / vmax < 1 := by rw [div_lt_one hv]; linarith
    nlinarith
  have hinv : v = vmin + ((v - vmin) / vmax * ((tab.length - 1 : Nat) : K)) * (vmax / ((tab.length - 1 : Nat) : K)) := by
    field_simp
    ring
  generalize hi : (v - vmin) / vmax * ((tab.length - 1 : Nat) : K) = i at hi0 hi1 hinv
  have hk : ⌊i⌋₊ + 1 < tab.length := by
    have := (Nat.floor_lt hi0).2 hi1
    omega
  have hf0 := Nat.floor_le hi0
  have hf1 := Nat.lt_floor_add_one i
  have hev := eval_inside tab vmin vmax v ⌊i⌋₊ tab[⌊i⌋₊] tab[⌊i⌋₊ + 1] hv hn (List.getElem?_eq_getElem (by omega))
    (List.getElem?_eq_getElem hk) (by rw [hi]; exact hf0) (by rw [hi]; exact hf1)
  simp only [hi] at hev
  refine ⟨⌊i⌋₊, tab[⌊i⌋₊], tab[⌊i⌋₊ + 1], _, i - ⌊i⌋₊, List.getElem?_eq_getElem _, List.getElem?_eq_getElem _,
    hev, by linarith, by linarith, ?_, ?_⟩
  · rw [add_sub_cancel]; exact hinv
  · intro ch hch
    simp only [List.mem_cons, List.not_mem_nil, or_false] at hch
    rcases hch with rfl | rfl | rfl <;>
      exact mix_spec (i - ⌊i⌋₊) _ _ (by linarith) (by linarith)

end

/-- C40: the two maps of the library go from black, at and below zero, to white, at and above the maximum, and every colour of a table is
brighter than the one before. -/
theorem C40_maps {K : Type} [Field K] [LinearOrder K] [IsStrictOrderedRing K] [FloorRing K] (tab : List Color) (ht : tab = gerimap ∨ tab = gray)
    (vmax v : K) (hv : 0 < vmax) :
    (v ≤ 0 → -2 ^ 31 ≤ v / vmax * ((tab.length - 1 : Nat) : K) → eval tab 0 vmax v = some ⟨0, 0, 0⟩) ∧
    (vmax ≤ v → v / vmax * ((tab.length - 1 : Nat) : K) < 2 ^ 31 → eval tab 0 vmax v = some ⟨255, 255, 255⟩) ∧
    tab.Pairwise (fun a b => a.red + a.green + a.blue < b.red + b.green + b.blue) ∧
    ∀ c ∈ tab, c.red ≤ 255 ∧ c.green ≤ 255 ∧ c.blue ≤ 255 := by
  obtain ⟨cs, he⟩ : ∃ cs, tab = cs ++ [⟨255, 255, 255⟩] := by
    rcases ht with rfl | rfl
    · exact ⟨gerimap.dropLast, by decide⟩
    · exact ⟨gray.dropLast, by decide⟩
  obtain ⟨cs', he'⟩ : ∃ cs, tab = ⟨0, 0, 0⟩ :: cs := by
    rcases ht with rfl | rfl
    · exact ⟨gerimap.tail, by decide⟩
    · exact ⟨gray.tail, by decide⟩
  refine ⟨fun h1 h2 => ?_, fun h1 h2 => ?_, ?_, ?_⟩
  · rw [he'] at h2 ⊢
    exact C40_low_partial _ _ _ _ _ hv h1 (by simpa using h2)
  · rw [he] at h2 ⊢
    exact C40_high_partial _ _ _ _ _ hv (by simpa using h1) (by simpa using h2)
  · rcases ht with rfl | rfl <;> decide
  · rcases ht with rfl | rfl <;> decide

/-- C40 as stated is refuted when the minimum is not zero: the value is divided by the maximum
instead of the width of the range, and at the maximum of [1, 2] the grey map gives grey 127. -/
theorem C40_refuted : eval (K := ℚ) gray 1 2 2 = some ⟨127, 127, 127⟩ := by
  norm_num [eval, gray, mix]
  rw [Nat.floor_eq_iff (by norm_num)]
  norm_num

/-- C40 as stated is refuted for huge values: converting to `int` is undefined. -/
theorem C40_refuted_huge : eval (K := ℚ) gray 0 1 (2 ^ 31) = none := by
  norm_num [eval, gray]

/-- C40, exactly when evaluation is defined: for a non-empty table, a maximum other than zero and a
scaled value whose integer part fits into an `int`. -/
theorem C40_defined_iff {K : Type} [Field K] [LinearOrder K] [IsStrictOrderedRing K] [FloorRing K] (tab : List Color) (vmin vmax v : K) :
    (∃ c, eval tab vmin vmax v = some c) ↔ tab ≠ [] ∧ vmax ≠ 0 ∧
      -2 ^ 31 ≤ (v - vmin) / vmax * ((tab.length - 1 : Nat) : K) ∧ (v - vmin) / vmax * ((tab.length - 1 : Nat) : K) < 2 ^ 31 := by
  have hl : tab.length = 0 ↔ tab = [] := List.length_eq_zero_iff
  unfold eval
  by_cases h0 : tab.length = 0 ∨ vmax = 0
  · rw [if_pos h0, hl] at *
    constructor
    · rintro ⟨c, hc⟩; cases hc
    · rintro ⟨h1, h2, -⟩; rcases h0 with h | h
      · exact absurd h h1
      · exact absurd h h2
  · rw [if_neg h0]
    rw [not_or, hl] at h0
    have hpos : 0 < tab.length := List.length_pos_iff.2 h0.1
    simp only
    generalize hx : (v - vmin) / vmax * ((tab.length - 1 : Nat) : K) = x
    have hfl : (-2 ^ 31 ≤ ⌊x⌋ ∧ ⌊x⌋ < 2 ^ 31) ↔ (-2 ^ 31 ≤ x ∧ x < 2 ^ 31) := by
      rw [Int.le_floor, Int.floor_lt]
      norm_num
    by_cases hr : -2 ^ 31 ≤ ⌊x⌋ ∧ ⌊x⌋ < 2 ^ 31
    · rw [if_neg (not_not.2 hr)]
      refine ⟨fun _ => ⟨h0.1, h0.2, hfl.1 hr⟩, fun _ => ?_⟩
      split
      · exact ⟨_, List.getElem?_eq_getElem (by omega)⟩
      · split
        · exact ⟨_, List.getElem?_eq_getElem (by omega)⟩
        · rw [List.getElem?_eq_getElem (show ⌊x⌋.toNat < tab.length by omega),
            List.getElem?_eq_getElem (show ⌊x⌋.toNat + 1 < tab.length by omega)]
          exact ⟨_, rfl⟩
    · rw [if_pos hr]
      constructor
      · rintro ⟨c, hc⟩; cases hc
      · rintro ⟨-, -, h⟩; exact absurd (hfl.2 h) hr

/-- C40, every range: the range only enters through `(v - vmin) / vmax`, so that the statements
above (with `vmin = 0`, `vmax = 1`) give the colour for every range, also those with a negative
maximum. -/
theorem C40_scaled {K : Type} [Field K] [LinearOrder K] [IsStrictOrderedRing K] [FloorRing K] (tab : List Color) (vmin vmax v : K) (hv : vmax ≠ 0) :
    eval tab vmin vmax v = eval tab 0 1 ((v - vmin) / vmax) := by
  unfold eval
  simp [hv]

example : eval (K := ℚ) gray (-2) (-1) (-1) = eval (K := ℚ) gray 0 1 (-1) := by
  rw [C40_scaled _ _ _ _ (by norm_num)]; norm_num

/-- The built-in map half-way between the first two colours, below and above its range. -/
example : eval (K := ℚ) gerimap 0 1 (1 / 16) = some ⟨19, 19, 64⟩ ∧ eval (K := ℚ) gerimap 0 1 (-3) = some ⟨0, 0, 0⟩ ∧
    eval (K := ℚ) gerimap 0 1 7 = some ⟨255, 255, 255⟩ := by
  norm_num [eval, gerimap, mix]

/-! ### C41 -/

/-- Words of a text separated by white space. -/
def wordsFrom : Str → Str → List Str
  | cur, [] => if cur = [] then [] else [cur]
  | cur, c :: r =>
    if c = ' ' ∨ c = '\t' ∨ c = '\n' ∨ c = '\r' then (if cur = [] then wordsFrom [] r else cur :: wordsFrom [] r)
    else wordsFrom (cur ++ [c]) r

/-- A decimal number. -/
def numberOf (w : Str) : Option Nat :=
  if w ≠ [] ∧ ∀ c ∈ w, '0' ≤ c ∧ c ≤ '9' then some (w.foldl (fun n c => 10 * n + (c.toNat - 48)) 0) else none

/-- A picture: pixel at column `x` and row `y`. -/
structure Picture where
  width : Nat
  height : Nat
  samples : List Nat

def Picture.pixel (p : Picture) (x y : Nat) : Option Color :=
  match p.samples[3 * (y * p.width + x)]?, p.samples[3 * (y * p.width + x) + 1]?, p.samples[3 * (y * p.width + x) + 2]? with
  | some r, some g, some b => some ⟨r, g, b⟩
  | _, _, _ => none

/-- A plain PPM file after the format's definition: `P3`, width, height, largest value, then
exactly three samples per pixel, row by row, none above the largest value. -/
def readPPM (s : Str) : Option Picture :=
  match wordsFrom [] s with
  | magic :: w :: h :: m :: rest =>
    if magic ≠ ['P', '3'] then none else
    match numberOf w, numberOf h, numberOf m, rest.mapM numberOf with
    | some w, some h, some m, some ss =>
      if ss.length = 3 * (w * h) ∧ ∀ x ∈ ss, x ≤ m then some ⟨w, h, ss⟩ else none
    | _, _, _, _ => none
  | _ => none

theorem digit_sep (c : Char) (h : isDigitC c = true) : ¬ (c = ' ' ∨ c = '\t' ∨ c = '\n' ∨ c = '\r') := by
  rintro (rfl | rfl | rfl | rfl) <;> revert h <;> decide

theorem words_word (w : Str) (hw : ∀ c ∈ w, ¬ (c = ' ' ∨ c = '\t' ∨ c = '\n' ∨ c = '\r')) (cur : Str) (sep : Char)
    (hs : sep = ' ' ∨ sep = '\t' ∨ sep = '\n' ∨ sep = '\r') (r : Str) (hne : cur ++ w ≠ []) :
    wordsFrom cur (w ++ sep :: r) = (cur ++ w) :: wordsFrom [] r := by
  induction w generalizing cur with
  | nil =>
    rw [List.append_nil] at hne
    rw [List.nil_append, wordsFrom, if_pos hs, if_neg hne, List.append_nil]
  | cons c w ih =>
    rw [List.cons_append, wordsFrom, if_neg (hw c (by simp)), ih (fun x hx => hw x (by simp [hx])) _ (by simp)]
    simp

theorem words_number (n : Nat) (sep : Char) (hs : sep = ' ' ∨ sep = '\t' ∨ sep = '\n' ∨ sep = '\r') (r : Str) :
    wordsFrom [] (natText n ++ sep :: r) = natText n :: wordsFrom [] r := by
  obtain ⟨h1, h2, -⟩ := natText_digits n
  exact words_word (natText n) (fun c hc => digit_sep c (h2 c hc)) [] sep hs r h1

theorem numberOf_natText (n : Nat) : numberOf (natText n) = some n := by
  obtain ⟨h1, h2, h3⟩ := natText_digits n
  unfold numberOf
  rw [if_pos ⟨h1, fun c hc => by simpa [isDigitC] using h2 c hc⟩]
  exact congrArg some h3

/-- The samples of a colour. -/
def samplesOf (c : Color) : List Nat := [c.red, c.green, c.blue]

theorem words_pixel (c : Color) (r : Str) :
    wordsFrom [] (pixelText c ++ r) = (samplesOf c).map natText ++ wordsFrom [] r := by
  unfold pixelText
  simp only [List.append_assoc, List.cons_append, List.nil_append]
  rw [words_number _ _ (.inl rfl), words_number _ _ (.inl rfl), words_number _ _ (.inl rfl)]
  rfl

theorem words_line (ev : Nat → Option Color) (ncols i : Nat) : ∀ (n j : Nat) (l r : Str),
    ppmLine ev ncols i n j = some l →
    ∃ cs : List Color, cs.length = n ∧ (∀ (m : Nat), m < n → ∃ c, cs[m]? = some c ∧ ev (((j + m) * ncols + i) % 2 ^ 32) = some c) ∧
      wordsFrom [] (l ++ r) = (cs.flatMap samplesOf).map natText ++ wordsFrom [] r := by
  intro n
  induction n with
  | zero =>
    intro j l r h
    rw [ppmLine, Option.some.injEq] at h
    subst h
    exact ⟨[], rfl, by omega, rfl⟩
  | succ n ih =>
    intro j l r h
    rw [ppmLine] at h
    split at h
    · cases h
    · rename_i c hc
      split at h
      · cases h
      · rename_i l' hl'
        rw [Option.some.injEq] at h
        subst h
        obtain ⟨cs, h1, h2, h3⟩ := ih (j + 1) l' r hl'
        refine ⟨c :: cs, by simp [h1], ?_, ?_⟩
        · intro m hm
          cases m with
          | zero => exact ⟨c, rfl, hc⟩
          | succ m =>
            obtain ⟨c', hc1, hc2⟩ := h2 m (by omega)
            refine ⟨c', by simpa using hc1, ?_⟩
            rw [show j + (m + 1) = j + 1 + m from by omega]
            exact hc2
        · rw [List.append_assoc, words_pixel, h3]
          simp

theorem words_body (ev : Nat → Option Color) (nrows ncols : Nat) : ∀ (n i : Nat) (b : Str),
    ppmBody ev nrows ncols n i = some b →
    ∃ css : List (List Color), css.length = n ∧
      (∀ (y : Nat), y < n → ∃ cs, css[y]? = some cs ∧ cs.length = nrows ∧
        ∀ (x : Nat), x < nrows → ∃ c, cs[x]? = some c ∧ ev ((x * ncols + (i + y)) % 2 ^ 32) = some c) ∧
      wordsFrom [] b = (css.flatten.flatMap samplesOf).map natText := by
  intro n
  induction n with
  | zero =>
    intro i b h
    rw [ppmBody, Option.some.injEq] at h
    subst h
    exact ⟨[], rfl, by omega, rfl⟩
  | succ n ih =>
    intro i b h
    rw [ppmBody] at h
    split at h
    · cases h
    · rename_i l hl
      split at h
      · cases h
      · rename_i b' hb'
        rw [Option.some.injEq] at h
        subst h
        obtain ⟨css, h1, h2, h3⟩ := ih (i + 1) b' hb'
        obtain ⟨cs, g1, g2, g3⟩ := words_line ev ncols i nrows 0 l ('\n' :: b') hl
        refine ⟨cs :: css, by simp [h1], ?_, ?_⟩
        · intro y hy
          cases y with
          | zero =>
            refine ⟨cs, rfl, g1, ?_⟩
            intro x hx
            obtain ⟨c, c1, c2⟩ := g2 x hx
            exact ⟨c, c1, by simpa using c2⟩
          | succ y =>
            obtain ⟨cs', q1, q2, q3⟩ := h2 y (by omega)
            refine ⟨cs', by simpa using q1, q2, ?_⟩
            intro x hx
            obtain ⟨c, c1, c2⟩ := q3 x hx
            exact ⟨c, c1, by rw [show i + (y + 1) = i + 1 + y from by omega]; exact c2⟩
        · rw [g3, wordsFrom, if_pos (by simp), if_pos rfl, h3]
          simp

theorem flatten_uniform {α : Type} (n : Nat) : ∀ (ls : List (List α)), (∀ l ∈ ls, l.length = n) →
    ls.flatten.length = ls.length * n ∧
    ∀ (y x : Nat) (l : List α), ls[y]? = some l → x < n → ls.flatten[y * n + x]? = l[x]? := by
  intro ls
  induction ls with
  | nil => intro _; exact ⟨by simp, by intro y x l h; simp at h⟩
  | cons a ls ih =>
    intro h
    obtain ⟨i1, i2⟩ := ih (fun l hl => h l (by simp [hl]))
    have ha : a.length = n := h a (by simp)
    refine ⟨by rw [List.flatten_cons, List.length_append, i1, ha, List.length_cons, Nat.add_mul]; omega, ?_⟩
    intro y x l hl hx
    rw [List.flatten_cons]
    cases y with
    | zero =>
      simp only [List.getElem?_cons_zero, Option.some.injEq] at hl
      subst hl
      rw [Nat.zero_mul, Nat.zero_add, List.getElem?_append_left (by omega)]
    | succ y =>
      simp only [List.getElem?_cons_succ] at hl
      rw [List.getElem?_append_right (by rw [Nat.add_mul]; omega), ha,
        show (y + 1) * n + x - n = y * n + x from by rw [Nat.add_mul]; omega]
      exact i2 y x l hl hx

theorem mapM_numbers (ns : List Nat) : (ns.map natText).mapM numberOf = some ns := by
  induction ns with
  | nil => rfl
  | cons n ns ih => simp [List.mapM_cons, numberOf_natText, ih]

theorem body_defined (ev : Nat → Option Color) (nrows ncols : Nat) (hev : ∀ k, (ev k).isSome = true) (n i : Nat) :
    ∃ b, ppmBody ev nrows ncols n i = some b := by
  have hl : ∀ i n j, ∃ l, ppmLine ev ncols i n j = some l := by
    intro i n
    induction n with
    | zero => intro j; exact ⟨[], rfl⟩
    | succ n ih =>
      intro j
      obtain ⟨l, hl⟩ := ih (j + 1)
      obtain ⟨c, hc⟩ := Option.isSome_iff_exists.1 (hev ((j * ncols + i) % 2 ^ 32))
      exact ⟨pixelText c ++ l, by rw [ppmLine, hc]; simp only [hl]⟩
  induction n generalizing i with
  | zero => exact ⟨[], rfl⟩
  | succ n ih =>
    obtain ⟨l, hl⟩ := hl i nrows 0
    obtain ⟨b, hb⟩ := ih (i + 1)
    exact ⟨l ++ '\n' :: b, by rw [ppmBody, hl]; simp only [hb]⟩

/-- What is in any file written by `SaveImage`, with the index as computed. -/
theorem ppm_content (ev : Nat → Option Color) (nrows ncols : Nat) (hmax : ∀ k c, ev k = some c → c.red ≤ 255 ∧ c.green ≤ 255 ∧ c.blue ≤ 255)
    (s : Str) (hs : savePPM ev nrows ncols = some s) :
    ∃ p, readPPM s = some p ∧ p.width = nrows ∧ p.height = ncols ∧
      ∀ x y, x < nrows → y < ncols → p.pixel x y = ev ((x * ncols + y) % 2 ^ 32) := by
  rw [savePPM] at hs
  split at hs
  · cases hs
  · rename_i b hb
    rw [Option.some.injEq] at hs
    obtain ⟨css, h1, h2, h3⟩ := words_body ev nrows ncols ncols 0 b hb
    have hlen : ∀ l ∈ css, l.length = nrows := by
      intro l hl
      obtain ⟨y, hy, rfl⟩ := List.mem_iff_getElem.1 hl
      obtain ⟨cs, c1, c2, -⟩ := h2 y (by omega)
      rw [List.getElem?_eq_getElem hy, Option.some.injEq] at c1
      rw [c1]; exact c2
    obtain ⟨f1, f2⟩ := flatten_uniform nrows css hlen
    have hsamp : ∀ l ∈ css.flatten.map samplesOf, l.length = 3 := by
      intro l hl
      obtain ⟨c, -, rfl⟩ := List.mem_map.1 hl
      rfl
    obtain ⟨e1, e2⟩ := flatten_uniform 3 (css.flatten.map samplesOf) hsamp
    have hw : wordsFrom [] s = ['P', '3'] :: natText nrows :: natText ncols :: natText 255 ::
        (css.flatten.flatMap samplesOf).map natText := by
      rw [← hs, ← h3]
      have : ('P' :: '3' :: '\n' :: (natText nrows ++ ' ' :: (natText ncols ++ '\n' :: '2' :: '5' :: '5' :: '\n' :: b))) =
          ['P', '3'] ++ '\n' :: (natText nrows ++ ' ' :: (natText ncols ++ '\n' :: (natText 255 ++ '\n' :: b))) := by
        have : natText 255 = ['2', '5', '5'] := by
          rw [natText, dif_neg (by omega), natText, dif_neg (by omega), natText, dif_pos (by omega)]
          decide
        rw [this]
        rfl
      rw [this, words_word _ (by decide) _ _ (.inr (.inr (.inl rfl))) _ (by simp), words_number _ _ (.inl rfl),
        words_number _ _ (.inr (.inr (.inl rfl))), words_number _ _ (.inr (.inr (.inl rfl)))]
      rfl
    have hsize : (css.flatten.flatMap samplesOf).length = 3 * (nrows * ncols) := by
      rw [List.flatMap_def, e1, List.length_map, f1, h1, Nat.mul_comm ncols, Nat.mul_comm]
    have hbound : ∀ x ∈ css.flatten.flatMap samplesOf, x ≤ 255 := by
      intro x hx
      obtain ⟨c, hc, hx⟩ := List.mem_flatMap.1 hx
      obtain ⟨l, hl, hc⟩ := List.mem_flatten.1 hc
      obtain ⟨y, hy, rfl⟩ := List.mem_iff_getElem.1 hl
      obtain ⟨cs, c1, c2, c3⟩ := h2 y (by omega)
      rw [List.getElem?_eq_getElem hy, Option.some.injEq] at c1
      rw [c1] at hc
      obtain ⟨k, hk, rfl⟩ := List.mem_iff_getElem.1 hc
      obtain ⟨c', d1, d2⟩ := c3 k (by omega)
      rw [List.getElem?_eq_getElem hk, Option.some.injEq] at d1
      have := hmax _ _ d2
      rw [d1] at hx
      simp only [samplesOf, List.mem_cons, List.not_mem_nil, or_false] at hx
      rcases hx with rfl | rfl | rfl
      · exact this.1
      · exact this.2.1
      · exact this.2.2
    refine ⟨⟨nrows, ncols, css.flatten.flatMap samplesOf⟩, ?_, rfl, rfl, ?_⟩
    · rw [readPPM, hw]
      simp only [ne_eq, not_true, if_false, numberOf_natText, mapM_numbers]
      rw [if_pos ⟨hsize, hbound⟩]
    · intro x y hx hy
      obtain ⟨cs, c1, c2, c3⟩ := h2 y hy
      obtain ⟨c, d1, d2⟩ := c3 x hx
      rw [Nat.zero_add] at d2
      have hfl := f2 y x cs c1 hx
      rw [d1] at hfl
      have hm : (css.flatten.map samplesOf)[y * nrows + x]? = some (samplesOf c) := by
        rw [List.getElem?_map, hfl]; rfl
      have k0 := e2 (y * nrows + x) 0 _ hm (by omega)
      have k1 := e2 (y * nrows + x) 1 _ hm (by omega)
      have k2 := e2 (y * nrows + x) 2 _ hm (by omega)
      rw [Nat.mul_comm _ 3] at k0 k1 k2
      rw [Picture.pixel]
      simp only [List.flatMap_def]
      rw [Nat.add_zero] at k0
      rw [k0, k1, k2, d2]
      rfl

/-- C41: every file written for an image with at most 2^32 elements is a proper PPM file whose
width and height are `nrows` and `ncols`, with as many pixels as declared, and whose pixel in
column `x` and row `y` is the colour of element `(x, y)` of the image.
Missing: larger images, see `C41_refuted`. -/
theorem C41_ppm_partial (ev : Nat → Option Color) (nrows ncols : Nat) (hsize : nrows * ncols ≤ 2 ^ 32)
    (hev : ∀ k, ∃ c, ev k = some c ∧ c.red ≤ 255 ∧ c.green ≤ 255 ∧ c.blue ≤ 255) :
    ∃ s p, savePPM ev nrows ncols = some s ∧ readPPM s = some p ∧ p.width = nrows ∧ p.height = ncols ∧
      ∀ x y, x < nrows → y < ncols → p.pixel x y = ev (x * ncols + y) := by
  obtain ⟨b, hb⟩ := body_defined ev nrows ncols (fun k => by obtain ⟨c, hc, -⟩ := hev k; simp [hc]) ncols 0
  have hs : ∃ s, savePPM ev nrows ncols = some s := by rw [savePPM, hb]; exact ⟨_, rfl⟩
  obtain ⟨s, hs⟩ := hs
  obtain ⟨p, h1, h2, h3, h4⟩ := ppm_content ev nrows ncols (by
    intro k c hc
    obtain ⟨c', hc', h⟩ := hev k
    rw [hc, Option.some.injEq] at hc'
    subst hc'
    exact h) s hs
  refine ⟨s, p, hs, h1, h2, h3, ?_⟩
  intro x y hx hy
  have hlt : x * ncols + y < 2 ^ 32 := by
    calc x * ncols + y < x * ncols + ncols := by omega
      _ = (x + 1) * ncols := by rw [Nat.add_mul, Nat.one_mul]
      _ ≤ nrows * ncols := Nat.mul_le_mul_right _ hx
      _ ≤ 2 ^ 32 := hsize
  rw [h4 x y hx hy, Nat.mod_eq_of_lt hlt]

/-- C41 as stated is refuted for larger images: the element index is computed in 32 bits, so in
an image of 65537 times 65536 elements pixel (65536, 0) shows element (0, 0). -/
theorem C41_refuted (ev : Nat → Option Color)
    (hev : ∀ k, ∃ c, ev k = some c ∧ c.red ≤ 255 ∧ c.green ≤ 255 ∧ c.blue ≤ 255) (nrows ncols : Nat)
    (hr : nrows = 65537) (hc : ncols = 65536) :
    ∃ s p, savePPM ev nrows ncols = some s ∧ readPPM s = some p ∧ p.pixel 65536 0 = ev 0 := by
  obtain ⟨b, hb⟩ := body_defined ev nrows ncols (fun k => by obtain ⟨c, hc, -⟩ := hev k; simp [hc]) ncols 0
  have hs : ∃ s, savePPM ev nrows ncols = some s := by rw [savePPM, hb]; exact ⟨_, rfl⟩
  obtain ⟨s, hs⟩ := hs
  obtain ⟨p, h1, h2, h3, h4⟩ := ppm_content ev nrows ncols (by
    intro k c hc
    obtain ⟨c', hc', h⟩ := hev k
    rw [hc, Option.some.injEq] at hc'
    subst hc'
    exact h) s hs
  refine ⟨s, p, hs, h1, ?_⟩
  rw [h4 65536 0 (by omega) (by omega), hc, show (65536 * 65536 + 0) % 2 ^ 32 = 0 from rfl]

/-- A map whose colours are all at most 255 gives colours at most 255. -/
theorem eval_bound {K : Type} [Field K] [LinearOrder K] [IsStrictOrderedRing K] [FloorRing K]
    (tab : List Color) (htab : ∀ c ∈ tab, c.red ≤ 255 ∧ c.green ≤ 255 ∧ c.blue ≤ 255) (vmin vmax v : K) (c : Color)
    (h : eval tab vmin vmax v = some c) : c.red ≤ 255 ∧ c.green ≤ 255 ∧ c.blue ≤ 255 := by
  unfold eval at h
  split at h
  · cases h
  · simp only at h
    split at h
    · cases h
    · split at h
      · exact htab c (List.mem_of_getElem? h)
      · split at h
        · exact htab c (List.mem_of_getElem? h)
        · split at h
          · rename_i a b ha hb
            rw [Option.some.injEq] at h
            subst h
            have h1 := htab a (List.mem_of_getElem? ha)
            have h2 := htab b (List.mem_of_getElem? hb)
            have hf0 := Int.floor_le ((v - vmin) / vmax * ((tab.length - 1 : Nat) : K))
            have hf1 := (Int.lt_floor_add_one ((v - vmin) / vmax * ((tab.length - 1 : Nat) : K))).le
            refine ⟨?_, ?_, ?_⟩ <;>
              refine le_trans (mix_spec _ _ _ (by linarith) (by linarith)).2.1 (max_le ?_ ?_) <;> omega
          · cases h

/-- C41, with the built-in maps: an image of finite size and values within the `int` range. -/
theorem C41_builtin_partial (tab : List Color) (htab : tab = gerimap ∨ tab = gray) (img : Nat → ℚ) (nrows ncols : Nat)
    (hsize : nrows * ncols ≤ 2 ^ 32) (himg : ∀ k, |img k| < 2 ^ 28) :
    ∃ s p, savePPM (fun k => eval tab 0 1 (img k)) nrows ncols = some s ∧ readPPM s = some p ∧
      p.width = nrows ∧ p.height = ncols ∧
      ∀ x y, x < nrows → y < ncols → p.pixel x y = eval tab 0 1 (img (x * ncols + y)) := by
  have hcol : ∀ c ∈ tab, c.red ≤ 255 ∧ c.green ≤ 255 ∧ c.blue ≤ 255 := by
    rcases htab with rfl | rfl <;> decide
  have hlen : 2 ≤ tab.length ∧ tab.length ≤ 9 := by
    rcases htab with rfl | rfl <;> decide
  refine C41_ppm_partial (fun k => eval tab 0 1 (img k)) nrows ncols hsize ?_
  intro k
  have hdef : ∃ c, eval tab 0 1 (img k) = some c := by
    have hk := himg k
    rw [abs_lt] at hk
    have hn8 : ((tab.length - 1 : Nat) : ℚ) ≤ 8 := by
      have : tab.length - 1 ≤ 8 := by omega
      exact_mod_cast this
    have hn0 : (0 : ℚ) ≤ ((tab.length - 1 : Nat) : ℚ) := Nat.cast_nonneg _
    rcases lt_or_ge (img k) 0 with h0 | h0
    · obtain ⟨c, cs, rfl⟩ := List.exists_cons_of_ne_nil (l := tab) (by intro h; rw [h] at hlen; simp at hlen)
      refine ⟨c, C40_low_partial c cs 0 1 (img k) (by norm_num) h0.le ?_⟩
      simp only [List.length_cons, Nat.add_sub_cancel] at hn8 hn0
      rw [sub_zero, div_one]
      nlinarith
    · rcases lt_or_ge (img k) 1 with h1 | h1
      · obtain ⟨-, -, -, c, -, -, -, hc, -⟩ := C40_between_partial tab 0 1 (img k) (by norm_num) hlen.1 (by omega) h0 (by linarith)
        exact ⟨c, hc⟩
      · have hne : tab ≠ [] := by intro h; rw [h] at hlen; simp at hlen
        have e := List.dropLast_append_getLast hne
        refine ⟨tab.getLast hne, ?_⟩
        have hl : tab.dropLast.length = tab.length - 1 := by simp
        have := C40_high_partial tab.dropLast (tab.getLast hne) 0 1 (img k) (by norm_num) (by linarith) (by
          rw [hl, sub_zero, div_one]
          nlinarith)
        rwa [e] at this
  obtain ⟨c, hc⟩ := hdef
  exact ⟨c, hc, eval_bound tab hcol 0 1 (img k) c hc⟩

/-- The rows given to the PNG library: same arrangement, 8 bits per channel.
(Supporting result for C41; the library itself is not modelled.) -/
theorem C41_png_rows_partial (ev : Nat → Option Color) (nrows ncols : Nat) (hsize : nrows * ncols < 2 ^ 32)
    (hev : ∀ k, ∃ c, ev k = some c ∧ c.red ≤ 255 ∧ c.green ≤ 255 ∧ c.blue ≤ 255) :
    ∃ rows, pngRows ev nrows ncols = some rows ∧ rows.length = ncols ∧
      ∀ x y, x < nrows → y < ncols → ∃ row, rows[y]? = some row ∧ row.length = nrows ∧ row[x]? = ev (x * ncols + y) := by
  have hline : ∀ (i : Nat) (js : List Nat), ∃ cs : List Color, js.mapM (fun j => ev (j * ncols + i)) = some cs ∧
      cs.length = js.length ∧ (∀ c ∈ cs, c.red ≤ 255 ∧ c.green ≤ 255 ∧ c.blue ≤ 255) ∧
      ∀ (x j : Nat), js[x]? = some j → cs[x]? = ev (j * ncols + i) := by
    intro i js
    induction js with
    | nil => exact ⟨[], rfl, rfl, by simp, by intro x j h; simp at h⟩
    | cons j js ih =>
      obtain ⟨cs, h1, h2, h3, h4⟩ := ih
      obtain ⟨c, hc, hb⟩ := hev (j * ncols + i)
      refine ⟨c :: cs, by simp [List.mapM_cons, hc, h1], by simp [h2], ?_, ?_⟩
      · intro d hd
        rcases List.mem_cons.1 hd with rfl | hd
        · exact hb
        · exact h3 d hd
      · intro x j' hj
        cases x with
        | zero =>
          simp only [List.getElem?_cons_zero, Option.some.injEq] at hj
          subst hj
          simp [hc]
        | succ x =>
          simp only [List.getElem?_cons_succ] at hj ⊢
          exact h4 x j' hj
  have hfill : ∀ (n i : Nat), ∃ css : List (List Color), pngFill ev nrows ncols n i = some css.flatten ∧ css.length = n ∧
      ∀ (y : Nat), y < n → ∃ cs, css[y]? = some cs ∧ cs.length = nrows ∧ ∀ x, x < nrows → cs[x]? = ev (x * ncols + (i + y)) := by
    intro n
    induction n with
    | zero => intro i; exact ⟨[], rfl, rfl, by omega⟩
    | succ n ih =>
      intro i
      obtain ⟨css, h1, h2, h3⟩ := ih (i + 1)
      obtain ⟨cs, g1, g2, g3, g4⟩ := hline i (List.range nrows)
      have hid : cs.map (fun c => (⟨c.red % 256, c.green % 256, c.blue % 256⟩ : Color)) = cs := by
        conv => rhs; rw [← List.map_id cs]
        apply List.map_congr_left
        intro c hc
        obtain ⟨a1, a2, a3⟩ := g3 c hc
        rw [Nat.mod_eq_of_lt (by omega), Nat.mod_eq_of_lt (by omega), Nat.mod_eq_of_lt (by omega)]
        rfl
      refine ⟨cs :: css, by rw [pngFill, g1]; simp only [h1, hid, List.flatten_cons], by simp [h2], ?_⟩
      intro y hy
      cases y with
      | zero =>
        refine ⟨cs, rfl, by rw [g2, List.length_range], ?_⟩
        intro x hx
        exact g4 x x (List.getElem?_range hx)
      | succ y =>
        obtain ⟨cs', q1, q2, q3⟩ := h3 y (by omega)
        refine ⟨cs', by simpa using q1, q2, ?_⟩
        intro x hx
        rw [q3 x hx, show i + 1 + y = i + (y + 1) from by omega]
  obtain ⟨css, h1, h2, h3⟩ := hfill ncols 0
  have hlen : ∀ l ∈ css, l.length = nrows := by
    intro l hl
    obtain ⟨y, hy, rfl⟩ := List.mem_iff_getElem.1 hl
    obtain ⟨cs, c1, c2, -⟩ := h3 y (by omega)
    rw [List.getElem?_eq_getElem hy, Option.some.injEq] at c1
    rw [c1]; exact c2
  obtain ⟨f1, f2⟩ := flatten_uniform nrows css hlen
  have hok : css.flatten.length ≤ nrows * ncols % 2 ^ 32 := by
    rw [Nat.mod_eq_of_lt hsize, f1, h2, Nat.mul_comm]
  refine ⟨_, by rw [pngRows, h1]; simp only; rw [if_pos hok], by simp, ?_⟩
  intro x y hx hy
  refine ⟨_, by rw [List.getElem?_map, List.getElem?_range hy]; rfl, ?_, ?_⟩
  · rw [List.length_take, List.length_drop, f1, h2]
    have : (y + 1) * nrows ≤ ncols * nrows := Nat.mul_le_mul_right _ hy
    rw [Nat.add_mul] at this
    omega
  · obtain ⟨cs, c1, c2, c3⟩ := h3 y hy
    rw [List.getElem?_take_of_lt hx, List.getElem?_drop, f2 y x cs c1 hx, c3 x hx, Nat.zero_add]

/-- A 2 by 3 image in the grey map. -/
example : (savePPM (fun k => eval (K := ℚ) gray 0 1 ((k : ℚ) / 10)) 2 3).isSome = true := by
  obtain ⟨s, p, hs, -⟩ := C41_ppm_partial (fun k => some ⟨k % 256, 0, 0⟩) 2 3 (by norm_num)
    (fun k => ⟨_, rfl, by show k % 256 ≤ 255; omega, by show 0 ≤ 255; omega, by show 0 ≤ 255; omega⟩)
  norm_num [savePPM, ppmBody, ppmLine, eval, gray]

end Softlib
