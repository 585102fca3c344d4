import Verif.Model.Glib
import Mathlib.Analysis.SpecialFunctions.Complex.Arg
import Mathlib.Analysis.SpecialFunctions.Sqrt
import Mathlib.Algebra.Polynomial.Coeff

/-!
# Solid harmonics as explicit polynomials

`Rsol l m` is the (conjugated, regular) solid harmonic in the normalisation in which the
addition theorem has no coefficients; it is defined through the generating polynomial
`u(T) = -(x-iy)/2 T^2 + z T + (x+iy)/2` as the coefficient of `T^(l+m)` in `u(T)^l / l!`.
-/

namespace Newt

open Polynomial

/-- Integer-indexed coefficient, zero for negative indices. -/
noncomputable def zc (p : ℂ[X]) (k : ℤ) : ℂ := if 0 ≤ k then p.coeff k.toNat else 0

/-- The generating quadratic. -/
noncomputable def uPoly (v : V3) : ℂ[X] :=
  C (-((v 0 : ℂ) - Complex.I * v 1) / 2) * X ^ 2 + C (v 2 : ℂ) * X
    + C (((v 0 : ℂ) + Complex.I * v 1) / 2)

/-- Regular solid harmonic with unit addition theorem. -/
noncomputable def Rsol (l : ℕ) (m : ℤ) (v : V3) : ℂ := zc (uPoly v ^ l) (l + m) / l.factorial

/-- The orthonormal normalisation factor `sqrt((2l+1)/(4 pi) (l+m)! (l-m)!)`. -/
noncomputable def Nlm (l : ℕ) (m : ℤ) : ℝ :=
  Real.sqrt ((2 * l + 1) / (4 * Real.pi) *
    (((l : ℤ) + m).toNat.factorial * ((l : ℤ) - m).toNat.factorial))

end Newt
