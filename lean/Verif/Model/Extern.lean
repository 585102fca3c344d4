import Mathlib.Analysis.SpecialFunctions.Gamma.Basic
import Mathlib.Analysis.SpecialFunctions.Complex.Arg
import Mathlib.Analysis.SpecialFunctions.Trigonometric.Inverse
import Mathlib.Analysis.SpecialFunctions.Sqrt
import Mathlib.Algebra.Polynomial.Derivative

/-!
# Exact-arithmetic reading of the numpy/scipy functions the package calls

These definitions are part of the trusted base: they say what we take `numpy` and `scipy.special`
to compute.  They are written from the documentation of those libraries, not from the package.
-/

namespace Newt

open Polynomial

/-- `np.arctan2(y, x)`: the polar angle of the point `(x, y)` in `(-pi, pi]`, `0` at the origin. -/
noncomputable def arctan2 (y x : ℝ) : ℝ := Complex.arg ⟨x, y⟩

/-- Python/numpy `x % y` for floats: `x - y*floor(x/y)`. -/
noncomputable def pyMod (x y : ℝ) : ℝ := x - y * ⌊x / y⌋

/-- `sp.gammaln(x) = log|Gamma(x)|`. -/
noncomputable def gammaln (x : ℝ) : ℝ := Real.log |Real.Gamma x|

/-- `sp.factorial(n)` (not exact): `n!`, and `0` for negative `n`. -/
noncomputable def spFactorial (n : ℤ) : ℝ := if n < 0 then 0 else (n.toNat.factorial : ℝ)

/-- `sp.comb(n, k)`: the binomial coefficient, `0` unless `0 <= k <= n`. -/
noncomputable def spComb (n k : ℤ) : ℝ :=
  if 0 ≤ k ∧ k ≤ n then (n.toNat.choose k.toNat : ℝ) else 0

/-- The Legendre polynomial by Rodrigues' formula. -/
noncomputable def legendreP (n : ℕ) : ℝ[X] :=
  C (1 / (2 ^ n * (n.factorial : ℝ))) * derivative^[n] ((X ^ 2 - 1) ^ n)

/-- The associated Legendre function `lpmv(m, n, x)` with the Condon-Shortley phase, for `m >= 0`
and `-1 <= x <= 1`. -/
noncomputable def lpmv (m n : ℕ) (x : ℝ) : ℝ :=
  (-1) ^ m * Real.sqrt (1 - x ^ 2) ^ m * (derivative^[m] (legendreP n)).eval x

/-- `sp.sph_harm(m, n, azim, polar)` for `|m| <= n`. -/
noncomputable def sphHarm (m : ℤ) (n : ℕ) (azim polar : ℝ) : ℂ :=
  let k := m.natAbs
  let Y : ℂ := (Real.sqrt ((2 * n + 1) / (4 * Real.pi) * ((n - k).factorial / (n + k).factorial)) : ℝ)
    * Complex.exp (Complex.I * k * azim) * (lpmv k n (Real.cos polar) : ℝ)
  if 0 ≤ m then Y else (-1) ^ k * (starRingEnd ℂ) Y

/-- Auxiliary pair `(i_n x, i_(n+1) x)` of modified spherical Bessel functions of the first kind,
from `i_0 = sinh x / x`, `i_1 = (x cosh x - sinh x)/x^2` and the three-term recurrence. -/
noncomputable def sphericalInPair (x : ℝ) : ℕ → ℝ × ℝ
  | 0 => (Real.sinh x / x, (x * Real.cosh x - Real.sinh x) / x ^ 2)
  | n + 1 => ((sphericalInPair x n).2,
      (sphericalInPair x n).1 - (2 * n + 3) / x * (sphericalInPair x n).2)

/-- `sp.spherical_in(n, x)`. -/
noncomputable def sphericalIn (n : ℕ) (x : ℝ) : ℝ :=
  if x = 0 then (if n = 0 then 1 else 0) else (sphericalInPair x n).1

end Newt
