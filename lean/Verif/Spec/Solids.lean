import Verif.Spec.Moments
import Mathlib.MeasureTheory.Integral.Bochner.Set
import Mathlib.MeasureTheory.Constructions.BorelSpace.Basic
import Mathlib.MeasureTheory.Measure.Haar.OfBasis
import Mathlib.MeasureTheory.Measure.Lebesgue.Basic

/-!
# Specification: uniform solids as subsets of space, and their inner moments
-/

namespace Newt.Spec

open MeasureTheory

/-- The inner moment of a body of the given total mass spread uniformly over the set `S`:
`rho * integral over S of r^l conj(Y_lm)`, `rho = mass / volume(S)` (Lebesgue measure on space). -/
noncomputable def uniformMoment (mass : ℝ) (S : Set V3) (l : ℕ) (m : ℤ) : ℂ :=
  ((mass / (volume S).toReal : ℝ) : ℂ) * ∫ v in S, solidS l m v

/-- The right prism over the plane region `B`, of height `H`, centred on the xy-plane. -/
def prism (H : ℝ) (B : Set (ℝ × ℝ)) : Set V3 :=
  {v | -(H / 2) ≤ v 2 ∧ v 2 ≤ H / 2 ∧ (v 0, v 1) ∈ B}

/-- All segments joining the plane region `B` (in the xy-plane) to the apex `(0, 0, P)`. -/
def coneOver (P : ℝ) (B : Set (ℝ × ℝ)) : Set V3 :=
  {v | ∃ s : ℝ, 0 ≤ s ∧ s ≤ 1 ∧ ∃ b ∈ B, v 0 = s * b.1 ∧ v 1 = s * b.2 ∧ v 2 = (1 - s) * P}

/-- The plane region rotated by the angle `phi` about the origin. -/
def rotated (phi : ℝ) (B : Set (ℝ × ℝ)) : Set (ℝ × ℝ) :=
  {p | ∃ b ∈ B, p.1 = b.1 * Real.cos phi - b.2 * Real.sin phi ∧
    p.2 = b.1 * Real.sin phi + b.2 * Real.cos phi}

/-- The annular sector `Ri <= r <= Ro`, `|phi - phic| <= phih`. -/
def sector (Ri Ro phic phih : ℝ) : Set (ℝ × ℝ) :=
  {p | ∃ r phi : ℝ, Ri ≤ r ∧ r ≤ Ro ∧ phic - phih ≤ phi ∧ phi ≤ phic + phih ∧
    p.1 = r * Real.cos phi ∧ p.2 = r * Real.sin phi}

/-- The disc of radius `R` about the origin. -/
def disc (R : ℝ) : Set (ℝ × ℝ) := {p | p.1 ^ 2 + p.2 ^ 2 ≤ R ^ 2}

/-- The triangle with vertices at the origin, `A` and `B`. -/
def triangle (A B : ℝ × ℝ) : Set (ℝ × ℝ) :=
  {p | ∃ s t : ℝ, 0 ≤ s ∧ 0 ≤ t ∧ s + t ≤ 1 ∧ p.1 = s * A.1 + t * B.1 ∧ p.2 = s * A.2 + t * B.2}

/-- The rectangle `|x| <= a/2`, `|y| <= b/2`. -/
def rectangle (a b : ℝ) : Set (ℝ × ℝ) := {p | |p.1| ≤ a / 2 ∧ |p.2| ≤ b / 2}

/-- The regular polygon with `N` sides of length `a`, centred on the origin, one side at right
angles to the direction `phic`: the points on the inner side of every side, the apothem being
`a/(2 tan(pi/N))`. -/
def regularPolygon (N : ℕ) (a phic : ℝ) : Set (ℝ × ℝ) :=
  {p | ∀ j < N, p.1 * Real.cos (phic + 2 * Real.pi * j / N) + p.2 * Real.sin (phic + 2 * Real.pi * j / N)
    ≤ a / (2 * Real.tan (Real.pi / N))}

/-- The ball of radius `R` about the origin. -/
def ball (R : ℝ) : Set V3 := {v | modulus v ≤ R}

end Newt.Spec
