import Verif.Model.Glib

/-!
# Specification: rings of equal point masses
-/

namespace Newt.Spec

/-- `N` equal masses evenly spaced on the circle of radius `r` at height `z` about the z axis, the first at
azimuth `a`. -/
noncomputable def ringPts (N : ℕ) (m r z a : ℝ) : PtArray :=
  (List.range N).map fun k : ℕ =>
    ⟨m, ![r * Real.cos (a + 2 * Real.pi * k / N), r * Real.sin (a + 2 * Real.pi * k / N), z]⟩

/-- Squared distance of a point of the ring `(d, h)` from a point of the ring `(R, z)` when their azimuths differ
by `c`. -/
noncomputable def ringGap (d h R z c : ℝ) : ℝ := d ^ 2 + R ^ 2 + (z - h) ^ 2 - 2 * d * R * Real.cos c

end Newt.Spec
