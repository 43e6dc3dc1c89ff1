/-
C129: saving an image gives a complete file or an exception and releases what it used.  Model: SaveModel.lean.
-/
import Verif.Image.SaveModel
import Verif.Image.ImageProps

namespace Softlib

open Image Config SFile

/-- What one call leaves behind: the generator if it ended in an exception, and the built-in colour maps. -/
def imgMaps : ImgBlock → Nat
  | .cmapObj _ => 1
  | .cmapColors _ => 1
  | _ => 0

/-- With the pixels of a PNG image. -/
def imgPixels : ImgBlock → Nat
  | .bitmap => 1
  | .pixels => 1
  | _ => 0

theorem imgRows_count (n y : Nat) (L : ImgLive) (b : ImgBlock) :
    imgRows n y L b = L b + (match b with | .row z => if y ≤ z ∧ z < y + n then 1 else 0 | _ => 0) := by
  induction n generalizing y L with
  | zero =>
    cases b <;> simp only [imgRows, Nat.add_zero]
    rw [if_neg (by omega)]
    rfl
  | succ n ih =>
    rw [imgRows, ih]
    cases b with
    | row z =>
      simp only [imgNew, ImgBlock.row.injEq]
      split_ifs <;> omega
    | _ => simp [imgNew]

theorem imgFreeRows_count (n y : Nat) (L : ImgLive) (h : ∀ z, y ≤ z → z < y + n → 1 ≤ L (.row z)) :
    ∃ L', imgFreeRows n y L = some L' ∧
      ∀ b, L b = L' b + (match b with | .row z => if y ≤ z ∧ z < y + n then 1 else 0 | _ => 0) := by
  induction n generalizing y L with
  | zero =>
    refine ⟨L, rfl, fun b => ?_⟩
    cases b <;> simp only [Nat.add_zero]
    rw [if_neg (by omega)]
    rfl
  | succ n ih =>
    have hy := h y (le_refl _) (by omega)
    have hf : imgFree (.row y) L = some (fun x => if x = .row y then L x - 1 else L x) := by
      rw [imgFree, if_neg (by omega)]
    obtain ⟨L', e, hc⟩ := ih (y + 1) (fun x => if x = .row y then L x - 1 else L x) (fun z h1 h2 => by
      have : ImgBlock.row z ≠ .row y := by rw [Ne, ImgBlock.row.injEq]; omega
      simp only [this, if_false]
      exact h z (by omega) (by omega))
    refine ⟨L', by simp only [imgFreeRows, hf, e], fun b => ?_⟩
    have := hc b
    cases b with
    | row z =>
      show L (.row z) = L' (.row z) + if y ≤ z ∧ z < y + (n + 1) then 1 else 0
      simp only [ImgBlock.row.injEq] at this
      by_cases hz : z = y
      · subst hz
        simp only [if_true] at this
        rw [if_neg (by omega)] at this
        rw [if_pos (by omega)]
        omega
      · rw [if_neg hz] at this
        rw [this]
        congr 1
        by_cases h1 : y + 1 ≤ z ∧ z < y + 1 + n
        · rw [if_pos h1, if_pos (by omega)]
        · rw [if_neg h1, if_neg (by omega)]
    | _ => simpa using this

/-- What is allocated after `setjmp` is released exactly. -/
theorem imgDealloc_count (h : Nat) (L : ImgLive) :
    imgDealloc h (imgRows h 0 (imgNew .rowTable (imgNew .infoStruct (imgNew .writeStruct (imgNew .handle L))))) = some L := by
  set L0 := imgNew .infoStruct (imgNew .writeStruct (imgNew .handle L)) with hL0
  obtain ⟨L', e, hc⟩ := imgFreeRows_count h 0 (imgRows h 0 (imgNew .rowTable L0)) (fun z _ h2 => by
    rw [imgRows_count]
    simp only
    rw [if_pos (by omega)]; omega)
  have : L' = imgNew .rowTable L0 := by
    funext b
    have h1 := hc b
    rw [imgRows_count] at h1
    omega
  rw [imgDealloc, e, this]
  have f : ∀ b (M : ImgLive), imgFree b (imgNew b M) = some M := by
    intro b M
    rw [imgFree, if_neg (by simp [imgNew])]
    congr 1
    funext x
    simp only [imgNew]
    split_ifs <;> omega
  have sw : ∀ a b (M : ImgLive), imgNew a (imgNew b M) = imgNew b (imgNew a M) := by
    intro a b M
    funext x
    simp only [imgNew]
    split_ifs <;> rfl
  simp only [f, hL0]
  rw [sw .infoStruct .writeStruct]
  simp only [f]

/-- **C129 (exact)**, saving a PNG file, for every image, every number of rows, every behaviour of the
system and of libpng: undefined exactly if the pixels are; otherwise it returns exactly if everything up
to `png_write_png` succeeds, and then only the bitmap and its pixels stay. -/
theorem C129_png (rows : Option (List (List Color))) (ncols : Nat) (env : ImgEnv) (L : ImgLive) :
    (imgSavePNG rows ncols env L = .ub ↔ rows = none) ∧
    (∀ rs, rows = some rs → env.opens = true → env.writeOk = true → env.infoOk = true → (∀ k, env.jump = some k → ncols + 5 ≤ k) →
      imgSavePNG rows ncols env L =
        .done (imgNew .pixels (imgNew .bitmap L)) (if env.flush then some (.png rs) else none)) ∧
    (∀ L' f, imgSavePNG rows ncols env L = .done L' f →
      env.opens = true ∧ env.writeOk = true ∧ env.infoOk = true ∧ ∀ k, env.jump = some k → ncols + 5 ≤ k) := by
  obtain ⟨o, w, i, j, fl⟩ := env
  cases rows with
  | none => simp [imgSavePNG]
  | some rs =>
    have d := imgDealloc_count ncols (imgNew .pixels (imgNew .bitmap L))
    cases o <;> cases w <;> cases i <;> cases j <;> simp [imgSavePNG, d]
    rename_i k
    by_cases hk : k < ncols + 5
    · simp [hk]
    · simp [hk]; omega

/-- How many of a kind are live after an exception of `SaveImage`, beyond those before it. -/
def imgLeft (ncols : Nat) : ImgErr → Option Nat → ImgBlock → Nat
  | .create, _, b => imgPixels b
  | .writeStruct, _, b => imgPixels b + if b = .handle then 1 else 0
  | .infoStruct, _, b => imgPixels b + if b = .handle ∨ b = .writeStruct then 1 else 0
  | .write, some k, b => imgPixels b + (if b = .handle ∨ b = .writeStruct ∨ b = .infoStruct then 1 else 0) +
      (if b = .rowTable ∧ 2 ≤ k then 1 else 0) + (match b with | .row y => if y + 2 < k ∧ y < ncols then 1 else 0 | _ => 0)
  | _, _, _ => 0

/-- **C129 (exact)**, exceptions of PNG files: which one, and everything that is left allocated. -/
theorem C129_png_exceptions (rows : Option (List (List Color))) (ncols : Nat) (env : ImgEnv) (L L' : ImgLive) (e : ImgErr)
    (h : imgSavePNG rows ncols env L = .thrown e L') :
    ∀ b, L' b = L b + imgLeft ncols e env.jump b := by
  obtain ⟨o, w, i, j, fl⟩ := env
  cases rows with
  | none => simp [imgSavePNG] at h
  | some rs =>
    have d := imgDealloc_count ncols (imgNew .pixels (imgNew .bitmap L))
    cases o
    · simp only [imgSavePNG, Bool.not_false, if_true, ImgRes.thrown.injEq] at h
      obtain ⟨rfl, rfl⟩ := h
      intro b; cases b <;> simp [imgNew, imgLeft, imgPixels]
    cases w
    · simp only [imgSavePNG, Bool.not_false, Bool.not_true, Bool.false_eq_true, if_false, if_true, ImgRes.thrown.injEq] at h
      obtain ⟨rfl, rfl⟩ := h
      intro b; cases b <;> simp [imgNew, imgLeft, imgPixels]
    cases i
    · simp only [imgSavePNG, Bool.not_false, Bool.not_true, Bool.false_eq_true, if_false, if_true, ImgRes.thrown.injEq] at h
      obtain ⟨rfl, rfl⟩ := h
      intro b; cases b <;> simp [imgNew, imgLeft, imgPixels]
    cases j with
    | none => simp [imgSavePNG, d] at h
    | some k =>
      by_cases hk : k < ncols + 5
      · simp only [imgSavePNG, Bool.not_true, Bool.false_eq_true, if_false, hk, if_true, ImgRes.thrown.injEq] at h
        obtain ⟨rfl, rfl⟩ := h
        intro b
        by_cases h1 : k ≤ 1
        · rw [imgAtJump, if_pos h1]
          cases b <;> simp [imgNew, imgLeft, imgPixels] <;> omega
        · rw [imgAtJump, if_neg h1, imgRows_count]
          cases b with
          | row y =>
            simp only [imgNew, imgLeft, imgPixels, reduceCtorEq, if_false, false_and, or_self, Nat.zero_add, Nat.zero_le, true_and]
            congr 1
            by_cases h2 : y + 2 < k ∧ y < ncols
            · rw [if_pos h2, if_pos (by omega)]
            · rw [if_neg h2, if_neg (by omega)]
          | _ => simp [imgNew, imgLeft, imgPixels] <;> omega
      · simp [imgSavePNG, d, hk] at h

/-- **C129 (exact)**, the whole call: what is live after `gen` in every way it can end.  Never less than
the colour maps unless the format is unknown. -/
theorem C129_live (lib : Bool) (type : Nat) (img : Nat → ℚ) (nrows ncols : Nat) (m : ImgMap) (env : ImgEnv) (L L' : ImgLive) :
    (∀ f, imgGen lib type img nrows ncols m env L = .done L' f →
      ∀ b, L' b = L b + imgMaps b + if type = 0 then imgPixels b else 0) ∧
    (∀ e, imgGen lib type img nrows ncols m env L = .thrown e L' →
      (e = .format ∧ L' = L ∧ ¬ ((type = 0 ∧ lib = true) ∨ type = 1)) ∨
      (e ≠ .format ∧ ∀ b, L' b = L b + imgMaps b + (if b = .generator then 1 else 0) + imgLeft ncols e env.jump b)) := by
  have hc : ∀ b, imgConstruct L b = L b + imgMaps b + if b = .generator then 1 else 0 := by
    intro b
    cases b with
    | cmapObj g => cases g <;> simp [imgConstruct, imgNew, imgMaps]
    | cmapColors g => cases g <;> simp [imgConstruct, imgNew, imgMaps]
    | _ => simp [imgConstruct, imgNew, imgMaps]
  by_cases ht : (type = 0 ∧ lib = true) ∨ type = 1
  swap
  · rw [imgGen, if_neg ht]
    refine ⟨fun f h => by simp at h, fun e h => Or.inl ?_⟩
    simp only [ImgRes.thrown.injEq] at h
    exact ⟨h.1.symm, h.2.symm, ht⟩
  rw [imgGen, if_pos ht]
  dsimp only
  cases hm : imgColours img m with
  | none =>
    refine ⟨fun f h => by simp at h, fun e h => Or.inr ?_⟩
    simp only [ImgRes.thrown.injEq] at h
    obtain ⟨rfl, rfl⟩ := h
    refine ⟨by decide, fun b => ?_⟩
    rw [hc, imgLeft]
    all_goals simp
  | some ev =>
    dsimp only
    -- the end of the call, with what the generator does
    have fin : ∀ (r : ImgRes) (P : ImgBlock → Nat), (∀ f M, r = .done M f → ∀ b, M b = imgConstruct L b + P b) →
        (P .generator = 0) → ∀ f, imgDelete r = .done L' f → ∀ b, L' b = L b + imgMaps b + P b := by
      intro r P hr hP f h b
      cases r with
      | ub => simp [imgDelete] at h
      | thrown e M => simp [imgDelete] at h
      | done M g =>
        have hM := hr g M rfl
        have hg := hM .generator
        rw [hc] at hg
        simp only [if_true] at hg
        rw [imgDelete, imgFree, if_neg (by omega)] at h
        simp only [ImgRes.done.injEq] at h
        rw [← h.1]
        have hb := hM b
        rw [hc] at hb
        by_cases e : b = .generator
        · subst e
          simp only [if_true] at hb ⊢
          omega
        · simp only [e, if_false] at hb ⊢
          omega
    rcases ht with ⟨rfl, -⟩ | rfl
    · simp only [if_true]
      constructor
      · intro f h
        refine fin _ imgPixels (fun g M hM b => ?_) rfl f h
        obtain ⟨-, h2, h3⟩ := C129_png (pngRows ev nrows ncols) ncols env (imgConstruct L)
        obtain ⟨a1, a2, a3, a4⟩ := h3 M g hM
        cases hr : pngRows ev nrows ncols with
        | none => rw [hr] at hM; simp [imgSavePNG] at hM
        | some rs =>
          rw [h2 rs hr a1 a2 a3 a4] at hM
          simp only [ImgRes.done.injEq] at hM
          rw [← hM.1]
          cases b <;> simp [imgNew, imgPixels]
      · intro e h
        refine Or.inr ?_
        cases hr : imgSavePNG (pngRows ev nrows ncols) ncols env (imgConstruct L) with
        | ub => rw [hr] at h; simp [imgDelete] at h
        | done M g => rw [hr] at h; simp only [imgDelete] at h; split at h <;> simp at h
        | thrown e' M =>
          have hx := C129_png_exceptions _ _ _ _ _ _ hr
          rw [hr] at h
          simp only [imgDelete, ImgRes.thrown.injEq] at h
          obtain ⟨rfl, rfl⟩ := h
          refine ⟨?_, fun b => by rw [hx, hc]⟩
          rintro rfl
          obtain ⟨o, w, i, j, fl⟩ := env
          have d := imgDealloc_count ncols (imgNew .pixels (imgNew .bitmap (imgConstruct L)))
          cases hp : pngRows ev nrows ncols with
          | none => rw [hp] at hr; simp [imgSavePNG] at hr
          | some rs =>
            rw [hp] at hr
            cases o <;> cases w <;> cases i <;> cases j <;> simp [imgSavePNG, d] at hr
            split at hr <;> simp at hr
    · simp only [one_ne_zero, if_false]
      constructor
      · intro f h
        refine fin _ (fun _ => 0) (fun g M hM b => ?_) rfl f h
        cases hr : savePPM ev nrows ncols with
        | none => rw [hr] at hM; simp [imgSavePPM] at hM
        | some t =>
          rw [hr] at hM
          simp only [imgSavePPM, ImgRes.done.injEq] at hM
          rw [← hM.1]; rfl
      · intro e h
        exfalso
        cases hr : savePPM ev nrows ncols with
        | none => rw [hr] at h; simp [imgSavePPM, imgDelete] at h
        | some t =>
          rw [hr] at h
          simp only [imgSavePPM, imgDelete] at h
          split at h <;> simp at h

/-- **C129, refuted**: every call with a known format that ends, in whatever way, leaves memory allocated. -/
theorem C129_refuted_leak (lib : Bool) (type : Nat) (img : Nat → ℚ) (nrows ncols : Nat) (m : ImgMap) (env : ImgEnv) (L L' : ImgLive)
    (ht : (type = 0 ∧ lib = true) ∨ type = 1)
    (h : (∃ f, imgGen lib type img nrows ncols m env L = .done L' f) ∨ ∃ e, imgGen lib type img nrows ncols m env L = .thrown e L') :
    L (.cmapColors true) < L' (.cmapColors true) ∧ L (.cmapColors false) < L' (.cmapColors false) := by
  obtain ⟨h1, h2⟩ := C129_live lib type img nrows ncols m env L L'
  rcases h with ⟨f, h⟩ | ⟨e, h⟩
  · have := h1 f h
    constructor
    · have := this (.cmapColors true); simp only [imgMaps] at this; split at this <;> simp [imgPixels] at this <;> omega
    · have := this (.cmapColors false); simp only [imgMaps] at this; split at this <;> simp [imgPixels] at this <;> omega
  · rcases h2 e h with ⟨-, -, h3⟩ | ⟨-, h3⟩
    · exact absurd ht h3
    · constructor
      · have := h3 (.cmapColors true); simp only [imgMaps] at this; omega
      · have := h3 (.cmapColors false); simp only [imgMaps] at this; omega

/-- **C129, what is proved of releasing**: a call that returns leaves no generator, no file handle and
nothing of libpng behind, whatever was live before. -/
theorem C129_released_partial (lib : Bool) (type : Nat) (img : Nat → ℚ) (nrows ncols : Nat) (m : ImgMap) (env : ImgEnv) (L L' : ImgLive)
    (f : Option ImgFile) (h : imgGen lib type img nrows ncols m env L = .done L' f) :
    L' .generator = L .generator ∧ L' .handle = L .handle ∧ L' .writeStruct = L .writeStruct ∧ L' .infoStruct = L .infoStruct ∧
    L' .rowTable = L .rowTable ∧ ∀ y, L' (.row y) = L (.row y) := by
  have h1 := (C129_live lib type img nrows ncols m env L L').1 f h
  refine ⟨?_, ?_, ?_, ?_, ?_, fun y => ?_⟩ <;> rw [h1] <;> split_ifs <;> rfl

/-- **C129, refuted**: an exception after the file was opened leaves it open, whatever the image. -/
theorem C129_refuted_handle (img : Nat → ℚ) (nrows ncols : Nat) (m : ImgMap) (env : ImgEnv) (L L' : ImgLive) (e : ImgErr)
    (h : imgGen true 0 img nrows ncols m env L = .thrown e L') (he : e = .writeStruct ∨ e = .infoStruct ∨ e = .write) :
    L' .handle = L .handle + 1 ∧ L' .generator = L .generator + 1 := by
  rcases (C129_live true 0 img nrows ncols m env L L').2 e h with ⟨rfl, -⟩ | ⟨-, h3⟩
  · simp at he
  · have a := h3 .handle
    have b := h3 .generator
    rcases he with rfl | rfl | rfl
    · simp [imgMaps, imgLeft, imgPixels] at a b; exact ⟨a, b⟩
    · simp [imgMaps, imgLeft, imgPixels] at a b; exact ⟨a, b⟩
    · cases hj : env.jump with
      | none =>
        exfalso
        obtain ⟨o, w, i, j, fl⟩ := env
        simp only at hj
        subst hj
        rw [imgGen, if_pos (Or.inl ⟨rfl, rfl⟩)] at h
        dsimp only at h
        cases hm : imgColours img m with
        | none => rw [hm] at h; simp at h
        | some ev =>
          rw [hm] at h
          simp only [if_true] at h
          have d := imgDealloc_count ncols (imgNew .pixels (imgNew .bitmap (imgConstruct L)))
          cases hp : pngRows ev nrows ncols with
          | none => rw [hp] at h; simp [imgSavePNG, imgDelete] at h
          | some rs =>
            rw [hp] at h
            cases o <;> cases w <;> cases i <;> simp [imgSavePNG, imgDelete, d] at h
            split at h <;> simp at h
      | some k =>
        rw [hj] at a b
        simp [imgMaps, imgLeft, imgPixels] at a b
        exact ⟨a, b⟩

/-- **C129, refuted**: a PPM file that cannot be written is not reported, whatever the image. -/
theorem C129_refuted_silent (lib : Bool) (img : Nat → ℚ) (nrows ncols : Nat) (m : ImgMap) (env : ImgEnv) (L : ImgLive)
    (ev : Nat → Option Color) (hm : imgColours img m = some ev) (hd : ∃ t, savePPM ev nrows ncols = some t)
    (he : env.opens = false ∨ env.flush = false) :
    ∃ L', imgGen lib 1 img nrows ncols m env L = .done L' none := by
  obtain ⟨t, ht⟩ := hd
  have h0 : ((1 : Nat) = 0 ∧ lib = true) ∨ (1 : Nat) = 1 := Or.inr rfl
  have hf : (env.opens && env.flush) = false := by rcases he with h | h <;> simp [h]
  have hg : imgConstruct L .generator ≠ 0 := by simp [imgConstruct, imgNew]
  rw [imgGen, if_pos h0]
  dsimp only
  rw [hm]
  simp only [one_ne_zero, if_false, ht, imgSavePPM, imgDelete, hf, Bool.false_eq_true, imgFree, hg]
  exact ⟨_, rfl⟩

/-- **C129, refuted**: nor is a PNG file whose last bytes cannot be written. -/
theorem C129_refuted_flush (L : ImgLive) :
    ∃ L', imgGen true 0 (fun _ => 0) 1 1 (.code 0) ⟨true, true, true, none, false⟩ L = .done L' none := by
  have hp : pngRows (fun _ => eval (K := ℚ) gerimap 0 1 0) 1 1 = some [[⟨0, 0, 0⟩]] := by
    have : eval (K := ℚ) gerimap 0 1 0 = some ⟨0, 0, 0⟩ := by
      simp [eval, gerimap, mix]
    rw [this]; decide
  have d := imgDealloc_count 1 (imgNew .pixels (imgNew .bitmap (imgConstruct L)))
  have hg : imgNew .pixels (imgNew .bitmap (imgConstruct L)) .generator ≠ 0 := by simp [imgConstruct, imgNew]
  simp only [imgGen, imgColours, hp, imgSavePNG, d]
  simp [imgDelete, imgFree, hg]

/-- **C129, refuted**: the default colour map is the null pointer; every image with a pixel is undefined behaviour. -/
theorem C129_refuted_default (lib : Bool) (type : Nat) (img : Nat → ℚ) (nrows ncols : Nat) (env : ImgEnv) (L : ImgLive)
    (ht : (type = 0 ∧ lib = true) ∨ type = 1) (hr : 0 < nrows) (hc : 0 < ncols) :
    imgGen lib type img nrows ncols .null env L = .ub := by
  obtain ⟨r, rfl⟩ : ∃ r, nrows = r + 1 := ⟨nrows - 1, by omega⟩
  obtain ⟨c, rfl⟩ : ∃ c, ncols = c + 1 := ⟨ncols - 1, by omega⟩
  have h1 : pngRows (fun _ => none) (r + 1) (c + 1) = none := by
    have : (List.range (r + 1)).mapM (fun _ => (none : Option Color)) = none := by
      rw [List.range_succ_eq_map]; rfl
    rw [pngRows, pngFill, this]
  have h2 : savePPM (fun _ => none) (r + 1) (c + 1) = none := by
    rw [savePPM, ppmBody, ppmLine]
  rw [imgGen, if_pos ht]
  rcases ht with ⟨rfl, -⟩ | rfl
  · simp only [imgColours, if_true, h1, imgSavePNG, imgDelete]
  · simp only [imgColours, one_ne_zero, if_false, h2, imgSavePPM, imgDelete]

/-- **C129, what is proved of failures**: a call that returns while the file could be written to the end has
written the complete file, the one of C41; formats and colour maps outside the enumerations are always reported. -/
theorem C129_complete_partial (lib : Bool) (type : Nat) (img : Nat → ℚ) (nrows ncols : Nat) (m : ImgMap) (env : ImgEnv) (L L' : ImgLive)
    (f : Option ImgFile) (h : imgGen lib type img nrows ncols m env L = .done L' f) :
    ∃ ev, imgColours img m = some ev ∧
      ((type = 0 ∧ lib = true ∧ env.opens = true ∧ env.writeOk = true ∧ env.infoOk = true ∧
          ∃ rs, pngRows ev nrows ncols = some rs ∧ f = if env.flush then some (.png rs) else none) ∨
        (type = 1 ∧ ∃ t, savePPM ev nrows ncols = some t ∧ f = if env.opens && env.flush then some (.ppm t) else none)) := by
  by_cases ht : (type = 0 ∧ lib = true) ∨ type = 1
  swap
  · rw [imgGen, if_neg ht] at h; simp at h
  rw [imgGen, if_pos ht] at h
  dsimp only at h
  cases hm : imgColours img m with
  | none => rw [hm] at h; simp at h
  | some ev =>
    rw [hm] at h
    refine ⟨ev, rfl, ?_⟩
    rcases ht with ⟨rfl, hl⟩ | rfl
    · left
      simp only [if_true] at h
      obtain ⟨-, h2, h3⟩ := C129_png (pngRows ev nrows ncols) ncols env (imgConstruct L)
      cases hs : imgSavePNG (pngRows ev nrows ncols) ncols env (imgConstruct L) with
      | ub => rw [hs] at h; simp [imgDelete] at h
      | thrown e M => rw [hs] at h; simp [imgDelete] at h
      | done M g =>
        obtain ⟨a1, a2, a3, a4⟩ := h3 M g hs
        refine ⟨rfl, hl, a1, a2, a3, ?_⟩
        cases hr : pngRows ev nrows ncols with
        | none => rw [hr] at hs; simp [imgSavePNG] at hs
        | some rs =>
          refine ⟨rs, rfl, ?_⟩
          have hg := hs
          rw [h2 rs hr a1 a2 a3 a4] at hg
          simp only [ImgRes.done.injEq] at hg
          rw [hs] at h
          simp only [imgDelete] at h
          split at h
          · simp at h
          · simp only [ImgRes.done.injEq] at h
            rw [← h.2, ← hg.2]
    · right
      simp only [one_ne_zero, if_false] at h
      refine ⟨rfl, ?_⟩
      cases hr : savePPM ev nrows ncols with
      | none => rw [hr] at h; simp [imgSavePPM, imgDelete] at h
      | some t =>
        refine ⟨t, rfl, ?_⟩
        rw [hr] at h
        simp only [imgSavePPM, imgDelete] at h
        split at h
        · simp at h
        · simp only [ImgRes.done.injEq] at h
          exact h.2.symm

/-- **C129 (exact)**: `gen` is undefined exactly if the format is known and the colours of the pixels are
not defined; which exception is thrown before the image is looked at. -/
theorem C129_outcomes (lib : Bool) (type : Nat) (img : Nat → ℚ) (nrows ncols : Nat) (m : ImgMap) (env : ImgEnv) (L : ImgLive) :
    (imgGen lib type img nrows ncols m env L = .ub ↔
      ∃ ev, imgColours img m = some ev ∧
        ((type = 0 ∧ lib = true ∧ pngRows ev nrows ncols = none) ∨ (type = 1 ∧ savePPM ev nrows ncols = none))) ∧
    ((∃ L', imgGen lib type img nrows ncols m env L = .thrown .format L') ↔ ¬ (type = 0 ∧ lib = true) ∧ type ≠ 1) ∧
    ((∃ L', imgGen lib type img nrows ncols m env L = .thrown .colormap L') ↔
      ((type = 0 ∧ lib = true) ∨ type = 1) ∧ ∃ c, m = .code c ∧ 2 ≤ c) := by
  have hcode : imgColours img m = none ↔ ∃ c, m = .code c ∧ 2 ≤ c := by
    cases m with
    | code c =>
      match c with
      | 0 => simp [imgColours]
      | 1 => simp [imgColours]
      | n + 2 => simp [imgColours]
    | own ev => simp [imgColours]
    | null => simp [imgColours]
  by_cases ht : (type = 0 ∧ lib = true) ∨ type = 1
  swap
  · rw [imgGen, if_neg ht]
    rw [not_or] at ht
    refine ⟨⟨fun h => by simp at h, ?_⟩, ⟨fun _ => ht, fun _ => ⟨L, rfl⟩⟩, ⟨fun ⟨_, h⟩ => by simp at h, fun h => absurd h.1 (by rw [not_or]; exact ht)⟩⟩
    rintro ⟨ev, -, ⟨h1, h2, -⟩ | ⟨h1, -⟩⟩
    · exact absurd ⟨h1, h2⟩ ht.1
    · exact absurd h1 ht.2
  rw [← hcode, imgGen, if_pos ht]
  dsimp only
  have nf : ¬ (¬ (type = 0 ∧ lib = true) ∧ type ≠ 1) := by tauto
  cases hm : imgColours img m with
  | none =>
    refine ⟨⟨fun h => by simp at h, fun ⟨ev, h, _⟩ => by simp at h⟩, ⟨fun ⟨_, h⟩ => by simp at h, fun h => absurd h nf⟩,
      ⟨fun _ => ⟨ht, rfl⟩, fun _ => ⟨_, rfl⟩⟩⟩
  | some ev =>
    dsimp only
    have gfree : ∀ M : ImgLive, M .generator ≠ 0 → ∃ M', imgFree .generator M = some M' := fun M h => ⟨_, by rw [imgFree, if_neg h]⟩
    rcases ht with ⟨rfl, hl⟩ | rfl
    · simp only [if_true]
      have d := imgDealloc_count ncols (imgNew .pixels (imgNew .bitmap (imgConstruct L)))
      obtain ⟨M', hM⟩ := gfree (imgNew .pixels (imgNew .bitmap (imgConstruct L))) (by simp [imgConstruct, imgNew])
      cases hp : pngRows ev nrows ncols with
      | none => simp [imgSavePNG, imgDelete, hl, hp]
      | some rs =>
        obtain ⟨o, w, i, j, fl⟩ := env
        cases o <;> cases w <;> cases i <;> cases j <;> simp [imgSavePNG, imgDelete, d, hl, hp, hM]
        split_ifs <;> simp [hM]
    · simp only [one_ne_zero, if_false]
      obtain ⟨M', hM⟩ := gfree (imgConstruct L) (by simp [imgConstruct, imgNew])
      cases hp : savePPM ev nrows ncols with
      | none => simp [imgSavePPM, imgDelete, hp]
      | some t => simp [imgSavePPM, imgDelete, hp, hM]

/-- Calls one after the other, each with its own image, map and system; stops at undefined behaviour. -/
def imgCalls (lib : Bool) (type : Nat) : List ((Nat → ℚ) × Nat × Nat × ImgMap × ImgEnv) → ImgLive → Option ImgLive
  | [], L => some L
  | (img, r, c, m, env) :: cs, L =>
    match imgGen lib type img r c m env L with
    | .ub => none
    | .done L' _ => imgCalls lib type cs L'
    | .thrown _ L' => imgCalls lib type cs L'

/-- **C129, refuted**: memory grows without bound: any number of calls, however they end, leaves
that many copies of the colours of each map. -/
theorem C129_refuted_grows (lib : Bool) (type : Nat) (ht : (type = 0 ∧ lib = true) ∨ type = 1) (cs : List ((Nat → ℚ) × Nat × Nat × ImgMap × ImgEnv))
    (L L' : ImgLive) (h : imgCalls lib type cs L = some L') (g : Bool) :
    L (.cmapColors g) + cs.length = L' (.cmapColors g) := by
  induction cs generalizing L with
  | nil => simp only [imgCalls, Option.some.injEq] at h; rw [h]; rfl
  | cons c cs ih =>
    obtain ⟨img, r, k, m, env⟩ := c
    have step : ∀ M, (∃ f, imgGen lib type img r k m env L = .done M f) ∨ (∃ e, imgGen lib type img r k m env L = .thrown e M) →
        M (.cmapColors g) = L (.cmapColors g) + 1 := by
      intro M hM
      obtain ⟨h1, h2⟩ := C129_live lib type img r k m env L M
      rcases hM with ⟨f, hM⟩ | ⟨e, hM⟩
      · rw [h1 f hM]; split_ifs <;> rfl
      · rcases h2 e hM with ⟨-, -, h3⟩ | ⟨-, h3⟩
        · exact absurd ht h3
        · rw [h3]
          cases e <;> cases env.jump <;> simp [imgMaps, imgLeft, imgPixels]
    rw [imgCalls] at h
    cases hg : imgGen lib type img r k m env L with
    | ub => rw [hg] at h; simp at h
    | done M f =>
      rw [hg] at h
      have := ih M h
      rw [step M (Or.inl ⟨f, hg⟩)] at this
      simp only [List.length_cons]; omega
    | thrown e M =>
      rw [hg] at h
      have := ih M h
      rw [step M (Or.inr ⟨e, hg⟩)] at this
      simp only [List.length_cons]; omega

/-- The hypotheses are met: a PPM file of one black pixel is written; a PNG file whose row 0 cannot be allocated throws. -/
example : ∃ L' t, imgGen false 1 (fun _ => 0) 1 1 (.own (fun _ => some ⟨0, 0, 0⟩)) ⟨true, true, true, none, true⟩ (fun _ => 0) = .done L' (some (.ppm t)) := by
  have hg : imgConstruct (fun _ => 0) .generator ≠ 0 := by simp [imgConstruct, imgNew]
  simp only [imgGen, imgColours, imgSavePPM, savePPM, ppmBody, ppmLine, imgDelete, imgFree]
  simp [hg]

example : ∃ L', imgGen true 0 (fun _ => 0) 1 1 (.own (fun _ => some ⟨0, 0, 0⟩)) ⟨true, true, true, some 2, true⟩ (fun _ => 0) = .thrown .write L' := by
  have hp : pngRows (fun _ => some ⟨0, 0, 0⟩) 1 1 = some [[⟨0, 0, 0⟩]] := by decide
  simp only [imgGen, imgColours, hp, imgSavePNG]
  simp [imgDelete]

end Softlib
