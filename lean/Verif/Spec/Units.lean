import Verif.Spec.Moments

/-!
# Specification: the same quantities after a change of the unit of length

One old unit of length is `s` new units, so every coordinate is multiplied by `s`
(`Spec.scalePos`).
-/

namespace Newt.Spec

/-- Inner moments (`mass * length^l`) in the new unit. -/
noncomputable def unitsInner (s : ℝ) {L : ℕ} (q : Mom L) : Mom L :=
  Mom.ofFn L fun l m => (s : ℂ) ^ l * q.get l m

/-- Outer moments (`mass / length^(l+1)`) in the new unit. -/
noncomputable def unitsOuter (s : ℝ) {L : ℕ} (q : Mom L) : Mom L :=
  Mom.ofFn L fun l m => q.get l m / (s : ℂ) ^ (l + 1)

end Newt.Spec
