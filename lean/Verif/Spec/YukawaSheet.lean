import Mathlib.Analysis.SpecialFunctions.Sqrt
import Mathlib.Analysis.SpecialFunctions.Exp
import Mathlib.Analysis.SpecialFunctions.Trigonometric.Basic

/-!
# Specification: the Yukawa attraction of a round plate and of an infinite sheet
-/

namespace Newt.Spec

/-- The Yukawa attraction, in units of `alpha G` times density times mass, that a round plate of radius `r2` and thickness `t` with a
concentric hole of radius `r1` exerts on a point of its axis at the height `h` above its middle plane, for the range `l`. -/
noncomputable def yukPlateField (l r1 r2 t h : ℝ) : ℝ :=
  2 * Real.pi * l * ((Real.exp (-Real.sqrt (r1 ^ 2 + (h - t / 2) ^ 2) / l) - Real.exp (-Real.sqrt (r2 ^ 2 + (h - t / 2) ^ 2) / l))
    - (Real.exp (-Real.sqrt (r1 ^ 2 + (h + t / 2) ^ 2) / l) - Real.exp (-Real.sqrt (r2 ^ 2 + (h + t / 2) ^ 2) / l)))

/-- The same for the infinite sheet of thickness `t`: `2 pi l (e^(-a/l) - e^(-b/l))` with the distances `a`, `b` of its two faces. -/
noncomputable def yukSheetField (l t h : ℝ) : ℝ :=
  2 * Real.pi * l * (Real.exp (-(h - t / 2) / l) - Real.exp (-(h + t / 2) / l))

end Newt.Spec
