/-
Model of the conversion of an analytical magnetic field to a numeric one.

Source: /repo/src/MagneticField/MagneticFieldAnalytical2D.cpp 262-315 (`ToNumeric2D`).

Exact real arithmetic; the product `nr*nz` does not overflow.  With one point per direction the
code divides zero by zero (NaN); the model divides by zero there and the theorems exclude it.
-/
import Verif.Magnetic.NumericModel

namespace Softlib.Magnetic

noncomputable section

/-- Lines 283-286: the points of one direction. -/
def linearGrid (lo hi : ℝ) (n : Nat) : List ℝ :=
  (List.range n).map fun i : Nat => lo + (hi - lo) * (i : ℝ) / ((n : ℝ) - 1)

/-- Lines 288-296: the loops assign every element `i + j*nr` once. -/
def fillGrid (nr nz : Nat) (v : Nat → Nat → ℝ) : List ℝ :=
  (List.range (nr * nz)).map fun k : Nat => v (k % nr) (k / nr)

/-- The arrays passed to the constructor, lines 267-296.  The array `Psi` is allocated but never
written: `junk` is what the memory contains. -/
structure ConvArrays where
  R : List ℝ
  Z : List ℝ
  Br : List ℝ
  Bphi : List ℝ
  Bz : List ℝ
  Psi : Option (List ℝ)

def AField.arrays (f : AField) (nr nz : Nat) (junk : List ℝ) : ConvArrays :=
  let R := linearGrid (f.rm - f.rminor) (f.rm + f.rminor) nr
  let Z := linearGrid (f.zm - f.rminor) (f.zm + f.rminor) nz
  let B (i j : Nat) := f.eval (R.getD i 0) 0 (Z.getD j 0)
  { R := R
    Z := Z
    Br := fillGrid nr nz fun i j => (B i j).1
    Bphi := fillGrid nr nz fun i j => (B i j).2.1
    Bz := fillGrid nr nz fun i j => (B i j).2.2
    Psi := some junk }

/-- `ToNumeric2D`, lines 262-315: the axis and the domain are copied, the domain becomes the
wall, and there is no separatrix. -/
def AField.toNumeric (f : AField) (name desc : String) (dom : List Pt) (nr nz : Nat) (junk : List ℝ) : Res NField :=
  let a := f.arrays nr nz junk
  nInit name desc a.R a.Z a.Br a.Bphi a.Bz a.Psi ⟨f.rm, f.zm⟩ none (some dom)

end

end Softlib.Magnetic
