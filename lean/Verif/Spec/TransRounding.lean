import Verif.Spec.TorqueRounding
import Verif.Spec.ClebschGordan
import Verif.Model.ClebschGordan

/-!
# Specification: the sizes that the rounding errors of Clebsch-Gordan coefficients and of translated moments are measured against
-/

namespace Newt.Spec

/-- Racah's formula with all terms taken without sign. -/
noncomputable def racahAbs (j1 j2 m1 m2 J M : ℤ) : ℝ :=
  Real.sqrt ((2 * J + 1) * (fct (J + j1 - j2) * fct (J - j1 + j2) * fct (j1 + j2 - J)) / fct (j1 + j2 + J + 1))
    * Real.sqrt (fct (J + M) * fct (J - M) * (fct (j1 - m1) * fct (j1 + m1)) * (fct (j2 - m2) * fct (j2 + m2)))
    * ∑ k ∈ Finset.Icc 0 (j1 + j2 - J), (invFct k * invFct (j1 + j2 - J - k) * invFct (j1 - m1 - k) * invFct (j2 + m2 - k)
      * invFct (J - j2 + m1 + k) * invFct (J - j1 - m2 + k))

/-- The factor of the moments of degree `l` in an inner moment of degree `L` translated by a distance `d`. -/
noncomputable def innerFac (L l : ℕ) (d : ℝ) : ℝ := Real.sqrt (4 * Real.pi * ((2 * L + 1).factorial / ((2 * (L - l) + 1).factorial * (2 * l + 1).factorial))) * d ^ (L - l)

/-- The factor of the moments of degree `l` in an outer moment of degree `L` translated by a distance `d`. -/
noncomputable def outerFac (L l : ℕ) (d : ℝ) : ℝ := Real.sqrt (4 * Real.pi * ((2 * l).factorial / ((2 * (l - L) + 1).factorial * (2 * L).factorial))) * d ^ (l - L)

/-- The factor of the inner moments of degree `l` in an outer moment of degree `L` seen from a distance `d`. -/
noncomputable def crossFac (L l : ℕ) (d : ℝ) : ℝ := Real.sqrt (4 * Real.pi * ((2 * (L + l)).factorial / ((2 * l + 1).factorial * (2 * L).factorial))) / d ^ (L + l + 1)

/-- A translated inner moment without regard to sign, from the sizes `w` of the moments (the Clebsch-Gordan coefficients are those of C24). -/
noncomputable def grossInner (w : ℕ → ℤ → ℝ) (d : ℝ) (L : ℕ) (M : ℤ) : ℝ :=
  ∑ l ∈ Finset.range (L + 1), ∑ m ∈ Finset.Icc (-(l : ℤ)) l, innerFac L l d * |cgCoeff (L - l : ℕ) l (M - m) m L M| * harmMax (L - l) * w l m

/-- A translated outer moment without regard to sign. -/
noncomputable def grossOuter (LMax : ℕ) (w : ℕ → ℤ → ℝ) (d : ℝ) (L : ℕ) (M : ℤ) : ℝ :=
  ∑ l ∈ Finset.Icc L LMax, ∑ m ∈ Finset.Icc (-(l : ℤ)) l, outerFac L l d * |cgCoeff (l - L : ℕ) l (M - m) m L M| * harmMax (l - L) * w l m

/-- An outer moment from inner ones without regard to sign. -/
noncomputable def grossCross (LMax : ℕ) (w : ℕ → ℤ → ℝ) (d : ℝ) (L : ℕ) (M : ℤ) : ℝ :=
  ∑ l ∈ Finset.range (LMax + 1), ∑ m ∈ Finset.Icc (-(l : ℤ)) l, crossFac L l d * |cgCoeff l (L + l : ℕ) (-m) (M + m) L M| * harmMax (L + l) * w l m

/-- The growth factor of a translation of moments of degree `L` that uses harmonics up to degree `N`: the logarithms of the factorials, the roundings
in each term and one for each addition, and the errors of the angles of the displacement (`d`, `8 u`) and of `sph_harm` (`eps`). -/
noncomputable def transGrow (u d eps : ℝ) (L N : ℕ) : ℝ :=
  Real.exp (relErr u 4 * (9 * Real.log ((2 * N + 1).factorial))) * (1 + relErr u (25 + 6 * L + (L + 1) ^ 2)) * (1 + (eps + N * (Real.pi * (d + 8 * u))))

end Newt.Spec
