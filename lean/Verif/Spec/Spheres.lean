import Verif.Spec.BodyForce
import Verif.Proofs.QlmBall

/-!
# Specification: assemblies of uniform spheres
-/

namespace Newt.Spec

/-- A uniform sphere of radius `R` around the position of the point `p`, with its mass. -/
noncomputable def Body.sphereAt (p : Pt) (R : ℝ) : Body :=
  (Body.solid p.mass (ball R) (ball_compact R)).translate p.pos

/-- An assembly of uniform spheres. -/
noncomputable def Body.spheres (A : List (Pt × ℝ)) : Body := A.flatMap fun s => Body.sphereAt s.1 s.2

end Newt.Spec
