import Verif.Spec.PointSolids
import Verif.Model.GShapeGL
import Mathlib.Algebra.Polynomial.Eval.Defs
import Mathlib.MeasureTheory.Integral.IntervalIntegral.Basic

/-!
# Specification: Gauss-Legendre quadrature, and the solids of `newt/gShapeGL.py`
-/

namespace Newt.Spec

/-- The `n`-point rule `r` is the Gauss-Legendre rule: it integrates every polynomial of degree below
`2 n` over `[-1, 1]` exactly.  (That is all that is assumed about `leggauss`; that its nodes lie in the
open interval, are distinct and symmetric and its weights positive is proved from it.) -/
def Gauss (r : GLeg.Rule) (n : ℕ) : Prop :=
  ∀ p : Polynomial ℝ, p.natDegree < 2 * n →
    ∑ i ∈ Finset.range n, r.w i * p.eval (r.s i) = ∫ x in (-1 : ℝ)..1, p.eval x

/-- The cylindrical ring `iR <= r <= oR`, `|z| <= t/2`. -/
def ring (iR oR t : ℝ) : Set V3 :=
  {v | iR ^ 2 ≤ v 0 ^ 2 + v 1 ^ 2 ∧ v 0 ^ 2 + v 1 ^ 2 ≤ oR ^ 2 ∧ |v 2| ≤ t / 2}

/-- Two cones tip to tip at the origin: radius `R` at the heights `+H` and `-H`. -/
def doubleCone (R H : ℝ) : Set V3 := {v | |v 2| ≤ H ∧ H ^ 2 * (v 0 ^ 2 + v 1 ^ 2) ≤ R ^ 2 * v 2 ^ 2}

end Newt.Spec
