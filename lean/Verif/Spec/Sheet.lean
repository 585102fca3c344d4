import Mathlib.Analysis.SpecialFunctions.Sqrt
import Mathlib.Analysis.SpecialFunctions.Trigonometric.Basic

/-!
# Specification: the attraction of a round plate
-/

namespace Newt.Spec

/-- The attraction, in units of `G` times density times mass, that a round plate of radius `r2` and thickness `t` with a concentric
hole of radius `r1` exerts on a point of its axis at the height `h` above its middle plane (textbook formula). -/
noncomputable def plateField (r1 r2 t h : ℝ) : ℝ :=
  2 * Real.pi * ((Real.sqrt (r2 ^ 2 + (h - t / 2) ^ 2) - Real.sqrt (r1 ^ 2 + (h - t / 2) ^ 2))
    - (Real.sqrt (r2 ^ 2 + (h + t / 2) ^ 2) - Real.sqrt (r1 ^ 2 + (h + t / 2) ^ 2)))

end Newt.Spec
