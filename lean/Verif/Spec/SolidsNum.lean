import Verif.Spec.Solids

/-!
# Specification: bodies given by a density, and the solids of `newt/qlmNum.py`, `newt/bigQlmNum.py`
-/

namespace Newt.Spec

open MeasureTheory

/-- The inner moment of matter of density `dens` filling the set `S`. -/
noncomputable def densityInner (dens : ℝ) (S : Set V3) (l : ℕ) (m : ℤ) : ℂ :=
  (dens : ℂ) * ∫ v in S, solidS l m v

/-- The outer moment of matter of density `dens` filling the set `S`. -/
noncomputable def densityOuter (dens : ℝ) (S : Set V3) (l : ℕ) (m : ℤ) : ℂ :=
  (dens : ℂ) * ∫ v in S, solidO l m v

/-- The points between the heights `h1` and `h2` that lie over the plane region `B`. -/
def slab (h1 h2 : ℝ) (B : Set (ℝ × ℝ)) : Set V3 :=
  {v | h1 ≤ v 2 ∧ v 2 ≤ h2 ∧ (v 0, v 1) ∈ B}

/-- The section `|phi| <= phih` of the solid standing on the annulus `IR <= r <= OR` of the
xy-plane whose height falls linearly from `H` at `r = IR` to `0` at `r = OR`. -/
def coneSection (phih IR OR H : ℝ) : Set V3 :=
  {v | ∃ r phi : ℝ, IR ≤ r ∧ r ≤ OR ∧ -phih ≤ phi ∧ phi ≤ phih ∧
    v 0 = r * Real.cos phi ∧ v 1 = r * Real.sin phi ∧ 0 ≤ v 2 ∧ v 2 * (OR - IR) ≤ H * (OR - r)}

/-- The symmetric trapezoid whose corners lie on the circles of radius `IR` and `OR` at the
azimuths `+phih` and `-phih`. -/
def radialTrapezoid (phih IR OR : ℝ) : Set (ℝ × ℝ) :=
  {p | IR * Real.cos phih ≤ p.1 ∧ p.1 ≤ OR * Real.cos phih ∧ |p.2| * Real.cos phih ≤ p.1 * Real.sin phih}

/-- What a drill of radius `r` along `z` removes from a cylinder of radius `R` along `x`. -/
def steinmetz (r R : ℝ) : Set V3 := {v | v 0 ^ 2 + v 1 ^ 2 ≤ r ^ 2 ∧ v 1 ^ 2 + v 2 ^ 2 ≤ R ^ 2}

/-- What a drill of radius `r` along `z` removes from a plate of thickness `t` through the origin
whose normal is `z` turned by `-theta` about `y`, i.e. the direction `(-sin theta, 0, cos theta)`. -/
def platehole (t r theta : ℝ) : Set V3 :=
  {v | v 0 ^ 2 + v 1 ^ 2 ≤ r ^ 2 ∧ |v 2 * Real.cos theta - v 0 * Real.sin theta| ≤ t / 2}

/-- The ball of radius `R` about `c`. -/
def ballAt (R : ℝ) (c : V3) : Set V3 := {v | modulus (v - c) ≤ R}

/-- The annular section that `annulus(LMax, dens, H, r0, r1, phic, phih)` is documented to describe:
between the plane `z = 0` and the height `H`, facing the azimuth `phic`. -/
def documentedSection (H r0 r1 phic phih : ℝ) : Set V3 := slab (min 0 H) (max 0 H) (sector r0 r1 phic phih)

end Newt.Spec
