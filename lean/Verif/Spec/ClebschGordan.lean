import Mathlib.Analysis.SpecialFunctions.Sqrt
import Mathlib.Data.Nat.Factorial.Basic
import Mathlib.Tactic

/-!
# Textbook Clebsch-Gordan coefficients (Racah's formula)
-/

namespace Newt.Spec

/-- `n!` for a (non-negative) integer. -/
noncomputable def fct (n : ℤ) : ℝ := (n.toNat.factorial : ℝ)

/-- `1/n!`, zero when `n < 0`. -/
noncomputable def invFct (n : ℤ) : ℝ := if n < 0 then 0 else 1 / fct n

/-- The arguments describe angular momenta that can be coupled. -/
def CGValid (j1 j2 m1 m2 J M : ℤ) : Prop :=
  |m1| ≤ j1 ∧ |m2| ≤ j2 ∧ |M| ≤ J ∧ |j1 - j2| ≤ J ∧ J ≤ j1 + j2 ∧ M = m1 + m2

/-- Racah's formula `< j1 j2; m1 m2 | J M >`; the sum runs over all `k` for which no factorial
argument is negative. -/
noncomputable def racah (j1 j2 m1 m2 J M : ℤ) : ℝ :=
  Real.sqrt ((2 * J + 1) * (fct (J + j1 - j2) * fct (J - j1 + j2) * fct (j1 + j2 - J))
      / fct (j1 + j2 + J + 1))
    * Real.sqrt (fct (J + M) * fct (J - M) * (fct (j1 - m1) * fct (j1 + m1))
      * (fct (j2 - m2) * fct (j2 + m2)))
    * ∑ k ∈ Finset.Icc 0 (j1 + j2 - J), (-1 : ℝ) ^ k * (invFct k * invFct (j1 + j2 - J - k)
      * invFct (j1 - m1 - k) * invFct (j2 + m2 - k)
      * invFct (J - j2 + m1 + k) * invFct (J - j1 - m2 + k))

end Newt.Spec
