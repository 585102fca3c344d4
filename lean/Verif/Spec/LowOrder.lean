import Verif.Spec.Field

/-!
# Specification: the field near the origin
-/

namespace Newt.Spec

/-- A field that is `g` at the origin and changes with the gravity gradient of the array `B` there. -/
noncomputable def linearField (g : V3) (B : PtArray) (x : V3) : V3 := fun i => g i + ∑ j, tidal 1 B 0 i j * x j

/-- The force of a field on an array. -/
noncomputable def forceIn (field : V3 → V3) (A : PtArray) : V3 := (A.map fun p => p.mass • field p.pos).sum

/-- The torque about the origin of a field on an array. -/
noncomputable def torqueIn (field : V3 → V3) (A : PtArray) : V3 := (A.map fun p => p.mass • crossProduct p.pos (field p.pos)).sum

end Newt.Spec
