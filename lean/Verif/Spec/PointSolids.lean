import Verif.Spec.Solids

/-!
# Specification: total mass, centre of mass and a few more solids, for point-mass discretisations
-/

namespace Newt.Spec

/-- The total mass of a point array. -/
noncomputable def totalMass (A : PtArray) : ℝ := (A.map Pt.mass).sum

/-- The first moment `sum_i m_i x_i` of a point array (total mass times centre of mass). -/
noncomputable def firstMoment (A : PtArray) (i : Fin 3) : ℝ := (A.map fun p => p.mass * p.pos i).sum

/-- Every point of the array lies in the set. -/
def Inside (A : PtArray) (S : Set V3) : Prop := ∀ p ∈ A, p.pos ∈ S

/-- The box `|x| <= a/2`, `|y| <= b/2`, `|z| <= c/2`. -/
def brick (a b c : ℝ) : Set V3 := {v | |v 0| ≤ a / 2 ∧ |v 1| ≤ b / 2 ∧ |v 2| ≤ c / 2}

/-- The sphere (surface) of radius `r`. -/
def shell (r : ℝ) : Set V3 := {v | modulus v = r}

/-- The trapezoidal slab between `x = r1 cos(beta)` and `x = r2 cos(beta)`, `|y| <= x tan(beta)`,
`|z| <= t/2`. -/
def trapezoidSlab (r1 r2 t beta : ℝ) : Set V3 :=
  {v | r1 * Real.cos beta ≤ v 0 ∧ v 0 ≤ r2 * Real.cos beta ∧ |v 1| ≤ v 0 * Real.tan beta ∧ |v 2| ≤ t / 2}

/-- The annular cone: height `H` at radius `r1` falling linearly to `0` at `r2`, azimuth within
`beta` of the x axis. -/
def annularCone (r1 r2 H beta : ℝ) : Set V3 :=
  {v | ∃ r phi : ℝ, r1 ≤ r ∧ r ≤ r2 ∧ |phi| ≤ beta ∧ v 0 = r * Real.cos phi ∧ v 1 = r * Real.sin phi ∧
    0 ≤ v 2 ∧ v 2 * (r2 - r1) ≤ H * (r2 - r)}

/-- The part of a cylinder of radius `R` about the x axis that a hole of radius `r` about the
z axis removes. -/
def drilledCylinder (r R : ℝ) : Set V3 :=
  {v | v 0 ^ 2 + v 1 ^ 2 ≤ r ^ 2 ∧ v 1 ^ 2 + v 2 ^ 2 ≤ R ^ 2}

/-- The part of the plate `|z| <= t/2` that a hole of radius `r` removes whose axis passes through
the origin, lies in the xz-plane and makes the angle `theta` with the z axis: the squared distance
from the axis is `y^2 + (x cos(theta) - z sin(theta))^2`. -/
def drilledPlate (t r theta : ℝ) : Set V3 :=
  {v | |v 2| ≤ t / 2 ∧ v 1 ^ 2 + (v 0 * Real.cos theta - v 2 * Real.sin theta) ^ 2 ≤ r ^ 2}

end Newt.Spec
