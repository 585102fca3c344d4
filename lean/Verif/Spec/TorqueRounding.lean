import Verif.Spec.MomRounding
import Verif.Model.Pg2Multi

/-!
# Specification: the sizes that the rounding errors of torques are measured against
-/

namespace Newt.Spec

/-- The torque amplitudes of two arrays of moments, without regard to sign: `4 pi |G|` times the sum of `|m| / (2l+1) |q_lm| |Q_lm|`. -/
noncomputable def grossTorqueLM (G : ℝ) {L : ℕ} (q Q : Mom L) : ℝ :=
  4 * Real.pi * |G| * ∑ l ∈ Finset.range (L + 1), ∑ m ∈ Finset.Icc (-(L : ℤ)) L, |(m : ℝ)| / (2 * l + 1) * ‖q.get l m‖ * ‖Q.get l m‖

/-- The relative error of `torque_lm` followed by `torques_at_angle` at degree `L`: `3L + 16` roundings and the rounding of `L` times the angle. -/
noncomputable def torqueErr (u : ℝ) (L : ℕ) (angle : ℝ) : ℝ := (1 + relErr u (3 * L + 16)) * (1 + u * (1 + L * |angle|)) - 1

/-- The relative error of the whole calculation from `N` rows: the roundings of the moments (`9 L + 26 + N` in all), of the angles of the rows
(`d`, `8 u`), of `sph_harm` (`eps` relative to its largest value) and of the angle. -/
noncomputable def budget (u d eps : ℝ) (L N : ℕ) (angle : ℝ) : ℝ :=
  (1 + relErr u (9 * L + 26 + N)) * (1 + u * (1 + L * |angle|)) * (1 + (eps + L * (Real.pi * (d + 8 * u)))) ^ 2 - 1

/-- The accuracy `d` of the polar angles of an array: `sqrt(2u)` in any case, proportional to `u` for rows away from the `z` axis. -/
def PolarAccuracy (u d : ℝ) (A : PtArray) : Prop := 0 ≤ d ∧ ∀ p ∈ A, Real.sqrt (relErr u 4 / 2) ≤ d ∨ relErr u 4 * originDist p ≤ d * cylRad p

end Newt.Spec
