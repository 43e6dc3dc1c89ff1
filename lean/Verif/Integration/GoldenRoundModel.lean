/-
Model of `PeakedIntegration::FindMaximum` with rounded arithmetic.

Source: /repo/src/Integration/PeakedIntegration.cpp 92-135.

`s5` is what `sqrt(5.0)` gives, `H` is the rounded 2π of line 103.  The number of rounds (line 111) is a
parameter here; `Verif/Integration/PeakedModel.lean` computes it from the tolerance.  As in
`Verif/General/RoundModel.lean` the exponent is not limited.
-/
import Verif.General.RoundModel

namespace Softlib.Integration

open Softlib.General

/-- `invphi`, PeakedIntegration.cpp 96. -/
def invphiR {u : ℚ} (R : Rnd u) (s5 : ℚ) : ℚ := R.fl (1 / 2 * R.fl (s5 - 1))

/-- Local variables of `FindMaximum`. -/
structure GoldenR where
  a : ℚ
  b : ℚ
  c : ℚ
  d : ℚ
  h : ℚ
  yc : ℚ
  yd : ℚ

/-- Before the loop, PeakedIntegration.cpp 102-109; `g` is `invphi`. -/
def goldenInitR {u : ℚ} (R : Rnd u) (g H : ℚ) (f : ℚ → ℚ) : GoldenR :=
  let a := 0
  let b := H
  let h := R.fl (b - a)
  let c := R.fl (a + R.fl (R.fl (g * g) * h))
  let d := R.fl (a + R.fl (g * h))
  ⟨a, b, c, d, h, f c, f d⟩

/-- One round, PeakedIntegration.cpp 114-128. -/
def goldenStepR {u : ℚ} (R : Rnd u) (g : ℚ) (f : ℚ → ℚ) (s : GoldenR) : GoldenR :=
  if s.yc > s.yd then
    let h := R.fl (g * s.h)
    let c := R.fl (s.a + R.fl (R.fl (g * g) * h))
    ⟨s.a, s.d, c, s.c, h, f c, s.yc⟩
  else
    let h := R.fl (g * s.h)
    let d := R.fl (s.c + R.fl (g * h))
    ⟨s.c, s.b, s.d, d, h, s.yd, f d⟩

/-- The loop. -/
def goldenLoopR {u : ℚ} (R : Rnd u) (g H : ℚ) (f : ℚ → ℚ) : ℕ → GoldenR
  | 0 => goldenInitR R g H f
  | n + 1 => goldenStepR R g f (goldenLoopR R g H f n)

/-- The returned value, PeakedIntegration.cpp 131-134. -/
def goldenResultR {u : ℚ} (R : Rnd u) (s : GoldenR) : ℚ :=
  if s.yc < s.yd then R.fl (1 / 2 * R.fl (s.a + s.d)) else R.fl (1 / 2 * R.fl (s.b + s.c))

end Softlib.Integration
