/-
Model of `ImageGenerator::gen`: which generator is used, what is allocated and released, and how a
failure shows.

Source: /repo/src/ImageGenerator/ImageGenerator.cpp 25-63,
/repo/include/softlib/ImageGenerator/ImageGenerator.h 21-74,
/repo/include/softlib/ImageGenerator/ImageColormap.h 19-32,
/repo/src/ImageGenerator/ImageGeneratorPNG.cpp 10-86,
/repo/src/ImageGenerator/ImageGeneratorPPM.cpp 15-48.

The contents of files are those of `ImageModel.lean`.  What is live is a number for each kind of block;
releasing a kind of which none is live is undefined.  Simplifications: `new` does not fail; a local
`ofstream` always closes its file, so it is not counted; what an incomplete file contains is not modelled;
the calls of libpng after `setjmp` either return or jump back (an error of libpng), and `png_free`,
`png_destroy_write_struct` do not fail.
-/
import Verif.Image.ImageModel

namespace Softlib.Image

open Softlib.Config Softlib.SFile

/-- Kinds of blocks and handles. -/
inductive ImgBlock where
  /-- The generator, ImageGenerator.cpp 51, 55. -/
  | generator
  /-- A built-in colour map, ImageGenerator.h 36-41 (`true`: gerimap). -/
  | cmapObj (g : Bool)
  /-- Its copy of the colours, ImageColormap.h 25. -/
  | cmapColors (g : Bool)
  /-- ImageGeneratorPNG.cpp 15. -/
  | bitmap
  /-- ImageGeneratorPNG.cpp 17. -/
  | pixels
  /-- `FILE*`, ImageGeneratorPNG.cpp 31. -/
  | handle
  /-- ImageGeneratorPNG.cpp 35. -/
  | writeStruct
  /-- ImageGeneratorPNG.cpp 39. -/
  | infoStruct
  /-- ImageGeneratorPNG.cpp 60. -/
  | rowTable
  /-- ImageGeneratorPNG.cpp 63. -/
  | row (y : Nat)
  deriving DecidableEq, Repr

/-- How many of each kind are live. -/
abbrev ImgLive := ImgBlock → Nat

/-- Allocation. -/
def imgNew (b : ImgBlock) (L : ImgLive) : ImgLive := fun x => if x = b then L x + 1 else L x

/-- Release; `none` if there is nothing to release. -/
def imgFree (b : ImgBlock) (L : ImgLive) : Option ImgLive :=
  if L b = 0 then none else some (fun x => if x = b then L x - 1 else L x)

/-- What is in a complete file. -/
inductive ImgFile where
  | ppm (text : Str)
  | png (rows : List (List Color))
  deriving DecidableEq, Repr

/-- The exceptions. -/
inductive ImgErr where
  /-- ImageGenerator.cpp 58-60. -/
  | format
  /-- ImageGenerator.h 56. -/
  | colormap
  /-- ImageGeneratorPNG.cpp 33. -/
  | create
  /-- ImageGeneratorPNG.cpp 37. -/
  | writeStruct
  /-- ImageGeneratorPNG.cpp 41. -/
  | infoStruct
  /-- ImageGeneratorPNG.cpp 44. -/
  | write
  deriving DecidableEq, Repr

/-- How a call ends; `file` is the complete file, if there is one. -/
inductive ImgRes where
  | done (L : ImgLive) (file : Option ImgFile)
  | thrown (e : ImgErr) (L : ImgLive)
  | ub

/-- What the system and libpng do during one call. -/
structure ImgEnv where
  /-- The file can be opened for writing. -/
  opens : Bool
  /-- `png_create_write_struct` succeeds. -/
  writeOk : Bool
  /-- `png_create_info_struct` succeeds. -/
  infoOk : Bool
  /-- The call of libpng after `setjmp` that jumps back: 0 `png_set_IHDR`, 1 the table of rows, `2 + y`
  row `y`, then `png_init_io`, `png_set_rows`, `png_write_png`. -/
  jump : Option Nat
  /-- What is left in the buffers of the file can be written when it is closed; for PPM, everything. -/
  flush : Bool

/-- Constructor of the base class, ImageGenerator.h 32-42, with `new`. -/
def imgConstruct (L : ImgLive) : ImgLive :=
  imgNew (.cmapColors false) (imgNew (.cmapObj false) (imgNew (.cmapColors true) (imgNew (.cmapObj true) (imgNew .generator L))))

/-- Rows `y`, …, `y + n - 1` are allocated, ImageGeneratorPNG.cpp 62-64. -/
def imgRows : Nat → Nat → ImgLive → ImgLive
  | 0, _, L => L
  | n + 1, y, L => imgRows n (y + 1) (imgNew (.row y) L)

/-- Rows are released, ImageGeneratorPNG.cpp 80-81. -/
def imgFreeRows : Nat → Nat → ImgLive → Option ImgLive
  | 0, _, L => some L
  | n + 1, y, L =>
    match imgFree (.row y) L with
    | none => none
    | some L' => imgFreeRows n (y + 1) L'

/-- ImageGeneratorPNG.cpp 79-85. -/
def imgDealloc (h : Nat) (L : ImgLive) : Option ImgLive :=
  match imgFreeRows h 0 L with
  | none => none
  | some L1 =>
    match imgFree .rowTable L1 with
    | none => none
    | some L2 =>
      match imgFree .writeStruct L2 with
      | none => none
      | some L3 =>
        match imgFree .infoStruct L3 with
        | none => none
        | some L4 => imgFree .handle L4

/-- What is live when call `k` of libpng after `setjmp` jumps back, from `L` at `setjmp`. -/
def imgAtJump (h k : Nat) (L : ImgLive) : ImgLive :=
  if k ≤ 1 then L else imgRows (min (k - 2) h) 0 (imgNew .rowTable L)

/-- `SaveImage` of the PNG generator, ImageGeneratorPNG.cpp 10-86; `rows` are those of `pngRows` (undefined
pixels come before the file is opened). -/
def imgSavePNG (rows : Option (List (List Color))) (ncols : Nat) (env : ImgEnv) (L : ImgLive) : ImgRes :=
  match rows with
  | none => .ub
  | some rs =>
    let L1 := imgNew .pixels (imgNew .bitmap L)
    if !env.opens then .thrown .create L1
    else
      let L2 := imgNew .handle L1
      if !env.writeOk then .thrown .writeStruct L2
      else
        let L3 := imgNew .writeStruct L2
        if !env.infoOk then .thrown .infoStruct L3
        else
          let L4 := imgNew .infoStruct L3
          let full :=
            match imgDealloc ncols (imgRows ncols 0 (imgNew .rowTable L4)) with
            | none => ImgRes.ub
            | some L5 => .done L5 (if env.flush then some (.png rs) else none)
          match env.jump with
          | none => full
          | some k => if k < ncols + 5 then .thrown .write (imgAtJump ncols k L4) else full

/-- `SaveImage` of the PPM generator, ImageGeneratorPPM.cpp 15-48: neither `open` nor the stream is checked. -/
def imgSavePPM (text : Option Str) (env : ImgEnv) (L : ImgLive) : ImgRes :=
  match text with
  | none => .ub
  | some t => .done L (if env.opens && env.flush then some (.ppm t) else none)

/-- The last argument of `gen`: a number of `enum colormap_type`, a map of the program (colour of each
element of the image), or the null pointer, which is the default, ImageGenerator.h 70-73. -/
inductive ImgMap where
  | code (c : Nat)
  | own (ev : Nat → Option Color)
  | null

/-- The colours of the elements; `none` is the exception of ImageGenerator.h 55-56.  Calling `Eval` on the null pointer is
undefined. -/
def imgColours (img : Nat → ℚ) : ImgMap → Option (Nat → Option Color)
  | .code 0 => some (fun k => eval gerimap 0 1 (img k))
  | .code 1 => some (fun k => eval gray 0 1 (img k))
  | .code _ => none
  | .own ev => some ev
  | .null => some (fun _ => none)

/-- `delete igen`, ImageGenerator.cpp 31, 39, which an exception passes by; the destructor releases nothing,
ImageGenerator.h 33. -/
def imgDelete : ImgRes → ImgRes
  | .done L f =>
    match imgFree .generator L with
    | none => .ub
    | some L' => .done L' f
  | .thrown e L => .thrown e L
  | .ub => .ub

/-- Both versions of `gen`, ImageGenerator.cpp 25-40 and 47-63; `lib`: `HAS_LIBPNG`; `type`: 0 PNG, 1 PPM. -/
def imgGen (lib : Bool) (type : Nat) (img : Nat → ℚ) (nrows ncols : Nat) (m : ImgMap) (env : ImgEnv) (L : ImgLive) : ImgRes :=
  if (type = 0 ∧ lib = true) ∨ type = 1 then
    let L1 := imgConstruct L
    match imgColours img m with
    | none => .thrown .colormap L1
    | some ev =>
      imgDelete (if type = 0 then imgSavePNG (pngRows ev nrows ncols) ncols env L1 else imgSavePPM (savePPM ev nrows ncols) env L1)
  else .thrown .format L

end Softlib.Image
