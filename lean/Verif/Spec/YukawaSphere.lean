import Mathlib.Analysis.SpecialFunctions.Trigonometric.DerivHyp

/-!
# Specification: form factors of the Yukawa interaction for shells and balls
-/

namespace Newt.Spec

/-- The factor by which a thin shell of radius `r` attracts more strongly, through a Yukawa interaction of range `l = r/x`, than the same
mass at its centre. -/
noncomputable def yukShell (x : ℝ) : ℝ := Real.sinh x / x

/-- The same factor for a uniform ball of radius `R`, `x = R/l`. -/
noncomputable def yukBall (x : ℝ) : ℝ := 3 * (x * Real.cosh x - Real.sinh x) / x ^ 3

end Newt.Spec
