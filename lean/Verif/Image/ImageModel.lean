/-
Model of colour maps and image files.

Source: /repo/include/softlib/ImageGenerator/ImageColormap.h 7-61,
/repo/include/softlib/ImageGenerator/ImageGenerator.h 12-42,
/repo/src/ImageGenerator/ImageGeneratorPPM.cpp 15-48,
/repo/src/ImageGenerator/ImageGeneratorPNG.cpp 15-29 and 59-73 (pixel buffer and rows; the
calls of libpng are not modelled).

Simplifications: exact arithmetic; at most 2^31 colours; the file opens and every write
succeeds (`SaveImage` does not check).  Undefined behaviour is `none`.
-/
import Verif.SFile.SdtModel
import Mathlib.Algebra.Order.Floor.Ring
import Mathlib.Algebra.Order.Floor.Semiring
import Mathlib.Data.Rat.Floor

namespace Softlib.Image

open Softlib.Config Softlib.SFile

/-- `scolor_t`, ImageColormap.h 9-11. -/
structure Color where
  red : Nat
  green : Nat
  blue : Nat
  deriving DecidableEq, Repr

variable {K : Type} [Field K] [LinearOrder K] [IsStrictOrderedRing K] [FloorRing K]

/-- One channel, ImageColormap.h 54-56: the conversion to `unsigned int` truncates. -/
def mix (f : K) (a b : Nat) : Nat := ⌊(1 - f) * a + f * b⌋₊

/-- `Eval`, ImageColormap.h 34-60.  Undefined: no colours (index out of range), `vmax = 0`
(infinite or NaN), or `floor(i)` not representable as `int`. -/
def eval (tab : List Color) (vmin vmax v : K) : Option Color :=
  if tab.length = 0 ∨ vmax = 0 then none
  else
    let i := (v - vmin) / vmax * ((tab.length - 1 : Nat) : K)
    let l := ⌊i⌋
    if ¬ (-2 ^ 31 ≤ l ∧ l < 2 ^ 31) then none
    else if l ≥ (tab.length : Int) - 1 then tab[tab.length - 1]?
    else if l < 0 then tab[0]?
    else
      let f := i - l
      match tab[l.toNat]?, tab[l.toNat + 1]? with
      | some a, some b => some ⟨mix f a.red b.red, mix f a.green b.green, mix f a.blue b.blue⟩
      | _, _ => none

/-- `icmap_gerimap`, ImageGenerator.h 12-16. -/
def gerimap : List Color :=
  [⟨0, 0, 0⟩, ⟨38, 38, 128⟩, ⟨76, 38, 191⟩, ⟨153, 51, 128⟩, ⟨255, 64, 38⟩, ⟨230, 128, 0⟩, ⟨230, 191, 26⟩,
   ⟨230, 230, 128⟩, ⟨255, 255, 255⟩]

/-- `icmap_gray`, ImageGenerator.h 17-19. -/
def gray : List Color := [⟨0, 0, 0⟩, ⟨255, 255, 255⟩]

/-! ### PPM -/

/-- ImageGeneratorPPM.cpp 41. -/
def pixelText (c : Color) : Str :=
  natText c.red ++ ' ' :: (natText c.green ++ ' ' :: (natText c.blue ++ [' ']))

/-- The inner loop, ImageGeneratorPPM.cpp 37-42, from row `j` on for `n` rows; `ev k` is the
colour of `img[k]`.  The index is a 32-bit product. -/
def ppmLine (ev : Nat → Option Color) (ncols i : Nat) : Nat → Nat → Option Str
  | 0, _ => some []
  | n + 1, j =>
    match ev ((j * ncols + i) % 2 ^ 32) with
    | none => none
    | some c =>
      match ppmLine ev ncols i n (j + 1) with
      | none => none
      | some r => some (pixelText c ++ r)

/-- The outer loop, ImageGeneratorPPM.cpp 36-45. -/
def ppmBody (ev : Nat → Option Color) (nrows ncols : Nat) : Nat → Nat → Option Str
  | 0, _ => some []
  | n + 1, i =>
    match ppmLine ev ncols i nrows 0 with
    | none => none
    | some l =>
      match ppmBody ev nrows ncols n (i + 1) with
      | none => none
      | some r => some (l ++ '\n' :: r)

/-- `SaveImage`, ImageGeneratorPPM.cpp 15-48: the text of the file. -/
def savePPM (ev : Nat → Option Color) (nrows ncols : Nat) : Option Str :=
  match ppmBody ev nrows ncols ncols 0 with
  | none => none
  | some b => some ('P' :: '3' :: '\n' :: (natText nrows ++ ' ' :: (natText ncols ++ '\n' :: '2' :: '5' :: '5' :: '\n' :: b)))

/-! ### PNG rows -/

/-- The pixel buffer, ImageGeneratorPNG.cpp 17-29: `index` runs through the columns, values
are cut to 8 bits, the buffer has `nrows*ncols` (32 bits) elements.  `n` columns from `i` on. -/
def pngFill (ev : Nat → Option Color) (nrows ncols : Nat) : Nat → Nat → Option (List Color)
  | 0, _ => some []
  | n + 1, i =>
    match (List.range nrows).mapM (fun j => ev (j * ncols + i)) with
    | none => none
    | some l =>
      match pngFill ev nrows ncols n (i + 1) with
      | none => none
      | some r => some (l.map (fun c => ⟨c.red % 256, c.green % 256, c.blue % 256⟩) ++ r)

/-- Rows handed to libpng, ImageGeneratorPNG.cpp 18-19 and 59-73: `ncols` rows of `nrows`
pixels.  Undefined when the buffer is too small. -/
def pngRows (ev : Nat → Option Color) (nrows ncols : Nat) : Option (List (List Color)) :=
  match pngFill ev nrows ncols ncols 0 with
  | none => none
  | some px =>
    if px.length ≤ (nrows * ncols) % 2 ^ 32 then
      some ((List.range ncols).map (fun y => (px.drop (y * nrows)).take nrows))
    else none

end Softlib.Image
