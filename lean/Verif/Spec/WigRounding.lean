import Verif.Spec.TransRounding
import Verif.Model.Glib
import Verif.Spec.TorqueRounding
import Mathlib.Analysis.SpecialFunctions.Trigonometric.Basic

/-!
# Specification: the sizes that the rounding errors of Wigner matrices and of rotated moments are measured against
-/

namespace Newt.Spec

/-- Wigner's formula for the entry `(n, m)` of degree `l` with all terms taken without sign. -/
noncomputable def wignerAbs (l : ℕ) (n m : ℤ) (beta : ℝ) : ℝ :=
  Real.sqrt (fct (l - m) * fct (l + m)) * Real.sqrt (fct (l - n) * fct (l + n)) *
    ∑ k ∈ Finset.Icc (0 : ℤ) (2 * l), |Real.cos (beta / 2)| ^ (2 * l + m - n - 2 * k).toNat * |Real.sin (beta / 2)| ^ (n - m + 2 * k).toNat *
      (invFct k * invFct (l + m - k) * invFct (l - n - k) * invFct (n - m + k))

/-- The growth factor of an entry of degree `l`: the roundings of each term, one for each addition, and the error of the phase. -/
noncomputable def wignerGrow (u alpha gamma : ℝ) (l : ℕ) : ℝ := (1 + relErr u (3 * l + 24)) * (1 + relErr u 2 * (l * (|alpha| + |gamma|)))

/-- The growth factor of a rotation of moments of degree `l`: the matrix, and `4l+3` roundings in each component of the scalar product. -/
noncomputable def rotGrow (u alpha gamma : ℝ) (l : ℕ) : ℝ := wignerGrow u alpha gamma l * (1 + relErr u (8 * l + 6))

/-- The relative error of a torque from `N` rows one of whose bodies is rotated by Wigner matrices. -/
noncomputable def rotatedBudget (u d eps alpha gamma : ℝ) (L N : ℕ) (angle : ℝ) : ℝ := (1 + budget u d eps L N angle) * rotGrow u alpha gamma L - 1

/-- The rows rotated by `gamma` about `z`, by `beta` about `y`, and by `alpha` about `z`. -/
def Rotated (A : PtArray) (alpha beta gamma : ℝ) (A' : PtArray) : Prop :=
  ∃ A1 A2, Newt.rotate_point_array A gamma ![0, 0, 1] = some A1 ∧ Newt.rotate_point_array A1 beta ![0, 1, 0] = some A2 ∧ Newt.rotate_point_array A2 alpha ![0, 0, 1] = some A'

end Newt.Spec
