import Verif.Spec.Moments

/-!
# Specification vocabulary for the multipole energy
-/

namespace Newt.Spec

/-- The interaction energy `-4 pi G sum_{l,m} q_lm Q_lm / (2l+1)` of a body with inner moments `q`
in the field of a body with outer moments `Q`, truncated at degree `L`. -/
noncomputable def multipoleEnergy {L : ℕ} (G : ℝ) (q Q : Mom L) : ℂ :=
  ((-4 * Real.pi * G : ℝ) : ℂ) * pairSum q Q

/-- The total absolute mass of an array. -/
noncomputable def absMass (A : PtArray) : ℝ := (A.map fun p => |p.mass|).sum

end Newt.Spec
