import Verif.Spec.Moments
import Verif.Spec.Glib

/-!
# Specification vocabulary for the Octave implementation
-/

namespace Newt.Spec

/-- The point with its `z` coordinate reversed. -/
def mirrorZ (p : Pt) : Pt := ⟨p.mass, ![p.pos 0, p.pos 1, -p.pos 2]⟩

/-- The point lies on the z axis. -/
def OnAxis (p : Pt) : Prop := p.pos 0 = 0 ∧ p.pos 1 = 0

open Classical in
/-- The array in which every point off the z axis is replaced by its mirror image in the plane `z = 0` and the points on
the z axis stay where they are. -/
noncomputable def mirrorOffAxis (A : PtArray) : PtArray := A.map fun p => if OnAxis p then p else mirrorZ p

/-- The Newtonian force on the array `A` due to the array `B`: `sum G m m' (x' - x)/|x' - x|^3`. -/
noncomputable def newtonForce (A B : PtArray) : V3 :=
  (A.map fun a => (B.map fun b => (BIG_G * a.mass * b.mass / dist3 a.pos b.pos ^ 3) • (b.pos - a.pos)).sum).sum

/-- The torque about the origin on the array `A` due to the array `B`: `sum x × (G m m' (x' - x)/|x' - x|^3)`. -/
noncomputable def newtonTorque (A B : PtArray) : V3 :=
  (A.map fun a => (B.map fun b =>
    (BIG_G * a.mass * b.mass / dist3 a.pos b.pos ^ 3) • crossProduct a.pos (b.pos - a.pos)).sum).sum

end Newt.Spec
