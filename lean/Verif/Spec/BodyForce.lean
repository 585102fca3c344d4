import Verif.Spec.Body
import Mathlib.LinearAlgebra.CrossProduct

/-!
# Specification: Newtonian force and torque between two mass distributions
-/

namespace Newt.Spec

open MeasureTheory

/-- The gravitational force on the body `b` due to the body `c`: `G ∬ dm dm' (y - x) / |y - x|³`. -/
noncomputable def Body.force (G : ℝ) (b c : Body) (i : Fin 3) : ℝ :=
  (b.map fun p => (c.map fun q => G * p.rho * q.rho *
    ∫ x, ∫ y, (y - x) i / modulus (y - x) ^ 3 ∂q.mu ∂p.mu).sum).sum

/-- The torque about the origin on the body `b` due to the body `c`:
`G ∬ dm dm' x × (y - x) / |y - x|³`. -/
noncomputable def Body.torque (G : ℝ) (b c : Body) (i : Fin 3) : ℝ :=
  (b.map fun p => (c.map fun q => G * p.rho * q.rho *
    ∫ x, ∫ y, (crossProduct x (y - x)) i / modulus (y - x) ^ 3 ∂q.mu ∂p.mu).sum).sum

end Newt.Spec
