import Verif.Model.Glib

/-!
# Specification vocabulary for displaced arrays
-/

namespace Newt.Spec

/-- The array whose points were meant to be at the listed positions ... -/
def nominal (P : List (Pt × V3)) : PtArray := P.map Prod.fst

/-- ... and the one in which each point is off by the listed displacement. -/
def displaced (P : List (Pt × V3)) : PtArray := P.map fun p => ⟨p.1.mass, p.1.pos + p.2⟩

end Newt.Spec
