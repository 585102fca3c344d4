import Verif.Spec.Random
import Verif.Spec.Glib

/-!
# Specification: the field of a point array
-/

namespace Newt.Spec

open MeasureTheory

/-- The gravity gradient: component `i` of the change of the force on a mass `m` at `x`, per displacement along `j`. -/
noncomputable def tidal (m : ℝ) (B : PtArray) (x : V3) (i j : Fin 3) : ℝ :=
  (B.map fun b => BIG_G * m * b.mass *
    (3 * (b.pos i - x i) * (b.pos j - x j) / dist3 x b.pos ^ 5 - (if i = j then 1 else 0) / dist3 x b.pos ^ 3)).sum

/-- The gradient of the Yukawa force on a mass `m` at `x`. -/
noncomputable def yukTidal (alpha l m : ℝ) (B : PtArray) (x : V3) (i j : Fin 3) : ℝ :=
  (B.map fun b => alpha * BIG_G * m * b.mass * Real.exp (-dist3 x b.pos / l) *
    ((3 / dist3 x b.pos ^ 5 + 3 / (l * dist3 x b.pos ^ 4) + 1 / (l ^ 2 * dist3 x b.pos ^ 3)) * (b.pos i - x i) * (b.pos j - x j) -
      (if i = j then 1 else 0) * (1 / dist3 x b.pos ^ 3 + 1 / (l * dist3 x b.pos ^ 2)))).sum

/-- The flux of a field through the sphere of radius `R` around `c`: the area element at height `R u` and longitude `phi` is `R^2 du dphi`. -/
noncomputable def sphereFlux (g : V3 → V3) (c : V3) (R : ℝ) : ℝ :=
  R ^ 2 * ∫ p in shellBox, g (c + shellMap R p) ⬝ᵥ shellMap 1 p

/-- The mass of the points within the distance `R` of `c`. -/
noncomputable def enclosed (B : PtArray) (c : V3) (R : ℝ) : ℝ := (B.map fun b => if dist3 c b.pos < R then b.mass else 0).sum

end Newt.Spec
