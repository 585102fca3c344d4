import Verif.Spec.SolidsNum

/-!
# Specification: the solids of `newt/qlmACH.py` that are not prisms or pyramids
-/

namespace Newt.Spec

/-- The (truncated) cone about the z-axis between the heights `a` and `b`, whose radius goes linearly
from `ra` at `z = a` to `rb` at `z = b`. -/
def frustum (a b ra rb : ℝ) : Set V3 :=
  {v | a ≤ v 2 ∧ v 2 ≤ b ∧ v 0 ^ 2 + v 1 ^ 2 ≤ (ra + (rb - ra) * ((v 2 - a) / (b - a))) ^ 2}

/-- What a drill of radius `r`, whose axis goes through the origin along `(sin theta, 0, cos theta)`,
removes from the plate `|z| <= t/2`: the squared distance of `v` from the axis is
`v1^2 + (v0 cos theta - v2 sin theta)^2`. -/
def drilledSlab (t r theta : ℝ) : Set V3 :=
  {v | -(t / 2) ≤ v 2 ∧ v 2 ≤ t / 2 ∧ (v 0 * Real.cos theta - v 2 * Real.sin theta) ^ 2 + v 1 ^ 2 ≤ r ^ 2}

/-- What a drill of radius `r` along `z` removes from a cylinder of radius `R` along `y`. -/
def drilledYCylinder (r R : ℝ) : Set V3 := {v | v 0 ^ 2 + v 1 ^ 2 ≤ r ^ 2 ∧ v 0 ^ 2 + v 2 ^ 2 ≤ R ^ 2}

end Newt.Spec
