import Verif.Spec.Moments
import Verif.Spec.Body

/-!
# Specification vocabulary for rotors
-/

namespace Newt.Spec

/-- The moments of an object with `N`-fold symmetry about the z axis: only orders divisible by `N` occur. -/
def FoldSym (N : ℕ) {L : ℕ} (q : Mom L) : Prop :=
  ∀ (l : ℕ) (m : ℤ), l ≤ L → m.natAbs ≤ l → ¬ (N : ℤ) ∣ m → q.get l m = 0

/-- `N` copies of a body, turned about the z axis by equal steps. -/
noncomputable def Body.ring (N : ℕ) (b : Body) : Body :=
  (List.range N).flatMap fun k : ℕ => b.rotate (2 * Real.pi * k / N) 0 0

/-- Two rings of copies of a body: `N` at distance `r` from the z axis and `N'` at distance `r'`. -/
noncomputable def Body.twoRings (N : ℕ) (r : ℝ) (N' : ℕ) (r' : ℝ) (b : Body) : Body :=
  (b.translate ![r, 0, 0]).ring N ++ (b.translate ![r', 0, 0]).ring N'

/-- A solid cylinder of length `H` and radius `R` about the origin, its axis along y. -/
def lying (H R : ℝ) : Set V3 := {v | -(H / 2) ≤ v 1 ∧ v 1 ≤ H / 2 ∧ v 0 ^ 2 + v 2 ^ 2 ≤ R ^ 2}

end Newt.Spec
