import Verif.Spec.Solid
import Verif.Model.Moments
import Verif.Model.Extern

/-!
# Specification vocabulary for multipole moments
-/

namespace Newt.Spec

/-- Cartesian coordinates of the point with radius `r`, polar angle `theta`, azimuth `phi`. -/
noncomputable def spherical (r theta phi : ℝ) : V3 :=
  ![r * Real.sin theta * Real.cos phi, r * Real.sin theta * Real.sin phi, r * Real.cos theta]

/-- The normalised regular solid harmonic `r^l conj(Y_lm)` as a polynomial in `x, y, z`. -/
noncomputable def solidS (l : ℕ) (m : ℤ) (v : V3) : ℂ := (Nlm l m : ℂ) * Rsol l m v

/-- The inner moment of a point array: `sum_i m_i r_i^l conj(Y_lm)`. -/
noncomputable def innerMoment (A : PtArray) (l : ℕ) (m : ℤ) : ℂ :=
  (A.map fun p => (p.mass : ℂ) * solidS l m p.pos).sum

/-- The reality symmetry `q(l,-m) = (-1)^m conj(q(l,m))` of a moment array. -/
def Sym {L : ℕ} (q : Mom L) : Prop :=
  ∀ (l : ℕ) (m : ℤ), l ≤ L → m.natAbs ≤ L → q.get l (-m) = (-1) ^ m.natAbs * (starRingEnd ℂ) (q.get l m)

/-- The unused corner cells `|m| > l` are zero. -/
def Tri {L : ℕ} (q : Mom L) : Prop :=
  ∀ (l : ℕ) (m : ℤ), l ≤ L → m.natAbs ≤ L → l < m.natAbs → q.get l m = 0

/-- A moment array as every routine of the package produces it. -/
def Valid {L : ℕ} (q : Mom L) : Prop := Sym q ∧ Tri q

/-- No point away from the origin comes after a point at the origin. -/
def OriginLast (A : PtArray) : Prop :=
  ∃ B O : PtArray, A = B ++ O ∧ (∀ p ∈ B, p.pos ≠ 0) ∧ (∀ p ∈ O, p.pos = 0)

/-- No point sits at the origin. -/
def OffOrigin (A : PtArray) : Prop := ∀ p ∈ A, p.pos ≠ 0

end Newt.Spec

namespace Newt.Spec

/-- The irregular solid harmonic `Y_lm / r^(l+1)` in Cartesian form, `conj(r^l conj Y_lm)/r^(2l+1)`. -/
noncomputable def solidO (l : ℕ) (m : ℤ) (v : V3) : ℂ :=
  (starRingEnd ℂ) (solidS l m v) / ((modulus v ^ (2 * l + 1) : ℝ) : ℂ)

/-- The outer moment of a point array: `sum_i m_i Y_lm / r_i^(l+1)`. -/
noncomputable def outerMoment (A : PtArray) (l : ℕ) (m : ℤ) : ℂ :=
  (A.map fun p => (p.mass : ℂ) * solidO l m p.pos).sum

end Newt.Spec

namespace Newt.Spec

/-- A point mass given in spherical coordinates. -/
structure SphPt where
  mass : ℝ
  r : ℝ
  theta : ℝ
  phi : ℝ

/-- A genuine spherical-coordinate description of a point off the origin. -/
def SphPt.Ok (s : SphPt) : Prop := 0 < s.r ∧ 0 ≤ s.theta ∧ s.theta ≤ Real.pi

/-- The Cartesian row of a point given in spherical coordinates. -/
noncomputable def SphPt.toPt (s : SphPt) : Pt := ⟨s.mass, spherical s.r s.theta s.phi⟩

/-- Some point away from the origin comes after a point at the origin. -/
def OffAfterOrigin (A : PtArray) : Prop :=
  ∃ (i j : ℕ) (p q : Pt), i < j ∧ A[i]? = some p ∧ A[j]? = some q ∧ p.pos = 0 ∧ q.pos ≠ 0

/-- Every point's coordinates multiplied by `s`. -/
def scalePos (s : ℝ) (A : PtArray) : PtArray := A.map fun p => ⟨p.mass, s • p.pos⟩

end Newt.Spec

namespace Newt.Spec

/-- The truncated interaction sum `sum_{l <= L} sum_{|m| <= l} q_lm Q_lm / (2l+1)`. -/
noncomputable def pairSum {L : ℕ} (q Q : Mom L) : ℂ :=
  ∑ l ∈ Finset.range (L + 1), ∑ m ∈ Finset.Icc (-(l : ℤ)) l, q.get l m * Q.get l m / (2 * l + 1)

end Newt.Spec
