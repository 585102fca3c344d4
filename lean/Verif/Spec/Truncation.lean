import Mathlib.Analysis.SpecialFunctions.Pow.Real

/-!
# Specification: what a truncation of the multipole expansion leaves out
-/

namespace Newt.Spec

/-- A unit mass within radius `a` and a unit mass beyond radius `R > a`: an upper limit of the part of the attraction carried by the
multipoles of degree greater than `L`. -/
noncomputable def missed (a R : ℝ) (L : ℕ) : ℝ := (a / R) ^ L * (L + 1 - L * (a / R)) / (R - a) ^ 2

end Newt.Spec
