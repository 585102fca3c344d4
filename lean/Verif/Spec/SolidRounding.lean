import Verif.Spec.TransRounding
import Mathlib.Analysis.SpecialFunctions.Trigonometric.Basic
import Mathlib.Data.Nat.Factorial.Basic

/-!
# Specification: the sizes that the rounding errors of the moments of annular sections and cones are measured against
-/

namespace Newt.Spec

/-- The normalisation of the moment of degree `l` and order `m` of a body of mass `mass`. -/
noncomputable def solidNorm (mass : ℝ) (l m : ℕ) : ℝ := |mass| * Real.sqrt (1 / (4 * Real.pi)) * Real.sqrt (2 * l + 1) * Real.sqrt ((l + m).factorial * (l - m).factorial)

/-- The closed form of the moments of an annular section with every subtraction replaced by an addition and the dependence on the angles replaced by one. -/
noncomputable def annAbs (mass H Ri Ro : ℝ) (l m : ℕ) : ℝ :=
  if (l - m) % 2 = 0 then
    (∑ k ∈ Finset.range ((l - m) / 2 + 1), H ^ (l - 2 * k - m) / ((2 : ℝ) ^ ((l : ℤ) - 1) * (2 * k + m + 2)) *
      ((Ro ^ (2 * k + m + 2) + Ri ^ (2 * k + m + 2)) / (k.factorial * (m + k).factorial * (l - m - 2 * k + 1).factorial))) * solidNorm mass l m / (Ro ^ 2 - Ri ^ 2)
  else 0

/-- The same for a section of a cone. -/
noncomputable def coneAbs (mass P R : ℝ) (l m : ℕ) : ℝ :=
  (∑ k ∈ Finset.range ((l - m) / 2 + 1), P ^ (l - 2 * k - m) * R ^ (2 * k + m) / (2 : ℝ) ^ ((2 * k + m : ℤ) - 1) *
    ((2 * k + m + 1).factorial / (k.factorial * (m + k).factorial))) * (3 * solidNorm mass l m / (l + 3).factorial)

/-- The same for a cylinder (order 0). -/
noncomputable def cylAbs (mass H R : ℝ) (l : ℕ) : ℝ :=
  |mass| * Real.sqrt (1 / (4 * Real.pi)) * Real.sqrt (2 * l + 1) *
    ∑ k ∈ Finset.range (l / 2 + 1), H ^ (l - 2 * k) * R ^ (2 * k) * l.factorial / (2 ^ l * k.factorial * (k + 1).factorial * (l - 2 * k + 1).factorial)

/-- How much the subtraction `Ro^2 - Ri^2` of rounded squares may enlarge their relative error. -/
noncomputable def wallErr (u Ri Ro : ℝ) : ℝ := u * ((Ro ^ 2 + Ri ^ 2) / (Ro ^ 2 - Ri ^ 2))

/-- The growth factor of the moments of degree `l` of an annular section. -/
noncomputable def annGrow (u Ri Ro phic : ℝ) (l : ℕ) : ℝ :=
  Real.exp (relErr u 3 * (Real.log (fct (l + 1)) + Real.log (fct (2 * l)))) * (1 + relErr u (36 + l)) * (1 + u * (l * |phic|)) / (1 - wallErr u Ri Ro)

/-- The growth factor of the moments of degree `l` of a section of a cone. -/
noncomputable def coneGrow (u phic : ℝ) (l : ℕ) : ℝ :=
  Real.exp (relErr u 3 * (2 * Real.log (fct (l + 1)) + Real.log (fct (l + 3)) + Real.log (fct (2 * l)))) * (1 + relErr u (36 + l)) * (1 + u * (l * |phic|))

end Newt.Spec
