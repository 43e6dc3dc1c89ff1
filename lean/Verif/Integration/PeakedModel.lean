/-
Model of `PeakedIntegration`.

Source: /repo/src/Integration/PeakedIntegration.cpp 40-81 (`Evaluate`), 92-135 (`FindMaximum`).

Simplifications: exact real arithmetic, the integrand is a pure function without NaN.  The
loop and the tail calls of `Evaluate` run on fuel; `fuel` means not finished yet.
-/
import Mathlib.Analysis.SpecialFunctions.Pow.Real
import Mathlib.Analysis.SpecialFunctions.Trigonometric.Basic
import Mathlib.Data.Real.Basic

namespace Softlib.Integration

noncomputable section

/-- Result of `Evaluate`. -/
inductive Res where
  /-- the exception of line 52 -/
  | zeroFalloff
  | fuel
  | ok (v : ℝ)

/-- The loop, PeakedIntegration.cpp 58-80, including the tail calls of lines 60 and 62 (which
start again at lines 46-56).  `M` is `maximum`, `F` is `fmax`. -/
def peakLoop (f : ℝ → ℝ) (a b w cut : ℝ) : Nat → (M F s delta fp fm : ℝ) → Res
  | 0, _, _, _, _, _, _ => .fuel
  | k + 1, M, F, s, delta, fp, fm =>
    if max fp fm > F * cut then
      if fp > F then
        peakLoop f a b w cut k (M + delta) fp fp w (f (M + delta + w)) (f (M + delta - w))
      else if fm > F then
        peakLoop f a b w cut k (M - delta) fm fm w (f (M - delta + w)) (f (M - delta - w))
      else
        peakLoop f a b w cut k M F (s + (fp + fm)) (delta + w)
          (if M + (delta + w) < b then f (M + (delta + w)) else 0)
          (if M - (delta + w) > a then f (M - (delta + w)) else 0)
    else .ok (w * (s + 1 / 2 * (fp + fm)))

/-- `Evaluate` with given maximum, PeakedIntegration.cpp 40-81. -/
def evaluate (f : ℝ → ℝ) (a b w cut : ℝ) (fuel : Nat) (M F : ℝ) : Res :=
  if w = 0 then .zeroFalloff
  else peakLoop f a b w cut fuel M F F w (f (M + w)) (f (M - w))

/-! ### golden section -/

/-- `invphi`, PeakedIntegration.cpp 96. -/
def invphi : ℝ := 1 / 2 * (Real.sqrt 5 - 1)

/-- Local variables of `FindMaximum`. -/
structure Golden where
  a : ℝ
  b : ℝ
  c : ℝ
  d : ℝ
  h : ℝ
  yc : ℝ
  yd : ℝ

/-- Before the loop, PeakedIntegration.cpp 102-109. -/
def goldenInit (f : ℝ → ℝ) : Golden :=
  let a := 0
  let b := 2 * Real.pi
  let h := b - a
  let c := a + invphi * invphi * h
  let d := a + invphi * h
  ⟨a, b, c, d, h, f c, f d⟩

/-- One round, PeakedIntegration.cpp 114-128. -/
def goldenStep (f : ℝ → ℝ) (g : Golden) : Golden :=
  if g.yc > g.yd then
    let h := invphi * g.h
    let c := g.a + invphi * invphi * h
    ⟨g.a, g.d, c, g.c, h, f c, g.yc⟩
  else
    let h := invphi * g.h
    let d := g.c + invphi * h
    ⟨g.c, g.b, g.d, d, h, g.yd, f d⟩

/-- The loop. -/
def goldenLoop (f : ℝ → ℝ) : Nat → Golden
  | 0 => goldenInit f
  | n + 1 => goldenStep f (goldenLoop f n)

/-- The returned value, PeakedIntegration.cpp 131-134. -/
def goldenResult (g : Golden) : ℝ :=
  if g.yc < g.yd then 1 / 2 * (g.a + g.d) else 1 / 2 * (g.b + g.c)

/-- The number of rounds, PeakedIntegration.cpp 111: conversion to `unsigned int` truncates;
undefined for a non-positive tolerance or outside the range. -/
def rounds (tol : ℝ) : Option Nat :=
  if tol ≤ 0 then none
  else
    let x := Real.log (tol / (2 * Real.pi - 0)) / Real.log invphi
    if x ≤ -1 ∨ 2 ^ 32 ≤ x then none else some ⌊x⌋₊

/-- `FindMaximum`, PeakedIntegration.cpp 92-135. -/
def findMaximum (f : ℝ → ℝ) (tol : ℝ) : Option ℝ :=
  match rounds tol with
  | none => none
  | some n => some (goldenResult (goldenLoop f n))

end

end Softlib.Integration
