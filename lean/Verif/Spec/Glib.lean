import Verif.Model.Glib

/-!
# Specification vocabulary for point gravity (independent of the algorithms of the model)
-/

namespace Newt.Spec

/-- Euclidean distance. -/
noncomputable def dist3 (x y : V3) : ℝ := Real.sqrt (∑ i, (x i - y i) ^ 2)

/-- No point of `A` sits on a point of `B`. -/
def Apart (A B : PtArray) : Prop := ∀ a ∈ A, ∀ b ∈ B, a.pos ≠ b.pos

/-- Newtonian potential energy of the two arrays. -/
noncomputable def newtonEnergy (A B : PtArray) : ℝ :=
  (A.map fun a => (B.map fun b => -(BIG_G * a.mass * b.mass) / dist3 a.pos b.pos).sum).sum

/-- Yukawa potential energy of the two arrays. -/
noncomputable def yukawaEnergy (alpha lmbd : ℝ) (A B : PtArray) : ℝ :=
  (A.map fun a => (B.map fun b =>
    -(alpha * BIG_G * a.mass * b.mass) / dist3 a.pos b.pos
      * Real.exp (-dist3 a.pos b.pos / lmbd)).sum).sum

/-- The array with all masses multiplied by `s`. -/
def scaleMass (s : ℝ) (A : PtArray) : PtArray := A.map fun p => ⟨s * p.mass, p.pos⟩

/-- The textbook description of the rotation by `theta` about the direction of `v` (right-handed):
linear, fixes `v`, and turns any vector perpendicular to `v` by `theta` in the plane
perpendicular to `v`. -/
structure IsRotationAbout (v : V3) (theta : ℝ) (f : V3 → V3) : Prop where
  map_add : ∀ x y, f (x + y) = f x + f y
  map_smul : ∀ (c : ℝ) x, f (c • x) = c • f x
  axis : f v = v
  plane : ∀ x, v ⬝ᵥ x = 0 →
    f x = Real.cos theta • x + (Real.sin theta / Real.sqrt (v ⬝ᵥ v)) • crossProduct v x

end Newt.Spec
