import Verif.Spec.TransRounding
import Verif.Spec.ForceRounding
import Verif.Spec.Rounding
import Verif.Spec.Multipole

/-!
# Specification: the rounding error of a calculation that moves a body by way of its moments
-/

namespace Newt.Spec

/-- The relative error of a torque from `N` rows one of whose bodies is moved by `translate_qlm`: `d` and `dd` are the accuracies of the polar angles of the rows and of the
displacement. -/
noncomputable def movedBudget (u d dd eps : ℝ) (L N : ℕ) (angle : ℝ) : ℝ := (1 + budget u d eps L N angle) * transGrow u dd eps L L - 1

/-- The same for a force. -/
noncomputable def movedForceBudget (u d dd eps : ℝ) (L N : ℕ) : ℝ := (1 + forceBudget u d eps L N) * transGrow u dd eps L L - 1

/-- The error of the force on points `A`, moved to `A'` at distances up to `r` from the origin by `translate_point_array` in floating point arithmetic, from masses `B` beyond `R`:
the rounding of `point_matrix_gravity` and the effect of the rounding of the moved coordinates. -/
noncomputable def movedForceErr (u : ℝ) (A A' B : PtArray) (r R : ℝ) (i : Fin 3) : ℝ :=
  relErr u (18 + A.length + B.length) * grossForce A' B i +
    BIG_G * absMass A * absMass B * (u * r * (2 * (R - r) - u * r) / ((R - r) ^ 2 * (R - r - u * r) ^ 2))

/-- The same for the torque. -/
noncomputable def movedTorqueErr (u : ℝ) (A A' B : PtArray) (r R : ℝ) (i : Fin 3) : ℝ :=
  relErr u (20 + A.length + B.length) * grossTorque A' B i +
    BIG_G * absMass A * absMass B * (r * (u * r * (2 * (R - r) - u * r) / ((R - r) ^ 2 * (R - r - u * r) ^ 2)) + u * r / (R - r - u * r) ^ 2)

end Newt.Spec
