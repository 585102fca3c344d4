import Verif.Spec.Multipole
import Verif.Spec.PointSolids

/-!
# Specification vocabulary for the far field
-/

namespace Newt.Spec

/-- Every point is within the distance `r` of the origin. -/
def WithinBall (r : ℝ) (A : PtArray) : Prop := ∀ p ∈ A, modulus p.pos ≤ r

end Newt.Spec
