import Verif.Spec.Rounding
import Verif.Spec.Moments
import Verif.Model.Pg2Float
import Mathlib.Analysis.SpecialFunctions.Trigonometric.Basic

/-!
# Specification: rounding to nearest, and the sizes that the rounding errors of multipole moments are measured against
-/

namespace Newt.Spec

/-- The floating point numbers with `p` binary digits (any exponent). -/
def Rep (p : ℕ) (x : ℝ) : Prop := ∃ k e : ℤ, |k| < 2 ^ p ∧ x = k * (2 : ℝ) ^ e

/-- `y` is a floating point number nearest to `x` (either one in case of a tie). -/
def Nearest (p : ℕ) (x y : ℝ) : Prop := Rep p y ∧ ∀ z, Rep p z → |y - x| ≤ |z - x|

/-- Every operation and library function has a relative error of at most `u`; `sph_harm` of degree `n` has an error of at most `e n`. -/
structure Accurate (a : Flt.Arith) (u : ℝ) (e : ℕ → ℝ) : Prop where
  op : ∀ x y, a.op x y → |y - x| ≤ u * |x|
  lib : ∀ x y, a.lib x y → |y - x| ≤ u * |x|
  harm : ∀ m n phi theta Y, a.harm m n phi theta Y → ‖Y - sphHarm m n phi theta‖ ≤ e n
  nonneg : ∀ n, 0 ≤ e n

/-- An arithmetic that answers every request. -/
structure Total (a : Flt.Arith) : Prop where
  op : ∀ x, ∃ y, a.op x y
  lib : ∀ x, ∃ y, a.lib x y
  harm : ∀ m n phi theta, ∃ Y, a.harm m n phi theta Y

/-- The sum of `|mass| w(r)` over the rows. -/
noncomputable def gross (w : Pt → ℝ) (A : PtArray) : ℝ := (A.map fun p => |p.mass| * w p).sum

/-- The distance of a row from the origin. -/
noncomputable def originDist (p : Pt) : ℝ := Real.sqrt (p.pos 0 ^ 2 + p.pos 1 ^ 2 + p.pos 2 ^ 2)

/-- The distance of a row from the `z` axis. -/
noncomputable def cylRad (p : Pt) : ℝ := Real.sqrt (p.pos 0 ^ 2 + p.pos 1 ^ 2)

/-- The largest value of a spherical harmonic of degree `l`. -/
noncomputable def harmMax (l : ℕ) : ℝ := Real.sqrt ((2 * l + 1) / (4 * Real.pi))

/-- What the errors of `sph_harm` (`e`), of the polar angle (`pi (d + u)`) and of the azimuth (`7 pi u`) can do to a harmonic of degree `l`. -/
noncomputable def harmErr (u d : ℝ) (e : ℕ → ℝ) (l : ℕ) : ℝ := e l + harmMax l * (l * (Real.pi * (d + 8 * u)))

end Newt.Spec
