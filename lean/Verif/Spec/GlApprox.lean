import Verif.Spec.Approx
import Verif.Spec.Gauss

/-!
# Specification: Gauss-Legendre arrays that approximate a uniform solid
-/

namespace Newt.Spec

open Filter

/-- Along the filter, the generator of `newt/gShapeGL.py` succeeds, its points lie in the solid `S`, and its arrays become
the uniform solid `S` of total mass `mass` (`Tracks`: `sum_i m_i f(x_i)` tends to `mass / volume(S)` times the integral of
`f` over `S` for every function `f` that is continuous on `S`, with bounded masses). -/
def GlTracks {ι : Type*} (F : Filter ι) (A : ι → GLeg.Out) (mass : ℝ) (S : Set V3) (hS : IsCompact S) : Prop :=
  ∃ B : ι → PtArray, (∀ᶠ n in F, A n = .ok (B n)) ∧ Tracks F B (Body.solid mass S hS) S

/-- The part of the prism over the triangle `(0, 0), (d, y1), (d, y2)` in the middle half of the range of `y`. -/
def middleOfPrism (d y1 y2 t : ℝ) : Set V3 :=
  {v | v ∈ prism t (triangle (d, y1) (d, y2)) ∧ |v 1 - (max 0 y2 + min 0 y1) / 2| ≤ (max 0 y2 - min 0 y1) / 4}

end Newt.Spec
