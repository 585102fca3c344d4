import Mathlib.Analysis.SpecialFunctions.Trigonometric.Basic
import Mathlib.Data.Matrix.Basic
import Mathlib.LinearAlgebra.Matrix.Notation
import Verif.Spec.Moments

/-!
# Specification: small Wigner matrices
-/

namespace Newt.Spec

/-- The six symmetries of the small d matrices: `d` for the angle `beta`, `dm` for `pi - beta`, `dp` for `pi + beta` and `dn`
for `-beta`. -/
structure DSymm (l : ℕ) (d dm dp dn : ℤ → ℤ → ℝ) : Prop where
  transpose : ∀ a b : ℤ, a.natAbs ≤ l → b.natAbs ≤ l → d a b = (-1) ^ (a - b).natAbs * d b a
  antitranspose : ∀ a b : ℤ, a.natAbs ≤ l → b.natAbs ≤ l → d a b = d (-b) (-a)
  supplement : ∀ a b : ℤ, a.natAbs ≤ l → b.natAbs ≤ l → dm a b = (-1) ^ (l + a : ℤ).toNat * d a (-b)
  opposite : ∀ a b : ℤ, a.natAbs ≤ l → b.natAbs ≤ l → dp a b = (-1) ^ (l - b : ℤ).toNat * d a (-b)
  inverse : ∀ a b : ℤ, a.natAbs ≤ l → b.natAbs ≤ l → dn a b = d b a
  sign : ∀ a b : ℤ, a.natAbs ≤ l → b.natAbs ≤ l → dn a b = (-1) ^ (a - b).natAbs * d a b

/-- The textbook matrix of degree one. -/
noncomputable def dOne (t : ℝ) : Matrix (Fin 3) (Fin 3) ℝ :=
  !![(1 + Real.cos t) / 2, Real.sin t / Real.sqrt 2, (1 - Real.cos t) / 2;
     -(Real.sin t / Real.sqrt 2), Real.cos t, Real.sin t / Real.sqrt 2;
     (1 - Real.cos t) / 2, -(Real.sin t / Real.sqrt 2), (1 + Real.cos t) / 2]

/-- The textbook matrix of degree two. -/
noncomputable def dTwo (t : ℝ) : Matrix (Fin 5) (Fin 5) ℝ :=
  let c := Real.cos t
  let s := Real.sin t
  let r := Real.sqrt (3 / 8)
  !![(1 + c) ^ 2 / 4, s * (1 + c) / 2, r * s ^ 2, s * (1 - c) / 2, (1 - c) ^ 2 / 4;
     -(s * (1 + c) / 2), (2 * c ^ 2 + c - 1) / 2, 2 * r * s * c, (-2 * c ^ 2 + c + 1) / 2, s * (1 - c) / 2;
     r * s ^ 2, -(2 * r * s * c), (3 * c ^ 2 - 1) / 2, 2 * r * s * c, r * s ^ 2;
     -(s * (1 - c) / 2), (-2 * c ^ 2 + c + 1) / 2, -(2 * r * s * c), (2 * c ^ 2 + c - 1) / 2, s * (1 + c) / 2;
     (1 - c) ^ 2 / 4, -(s * (1 - c) / 2), r * s ^ 2, -(s * (1 + c) / 2), (1 + c) ^ 2 / 4]

/-- The moments of a body of revolution about the z axis: only the orders zero occur. -/
def Axial {L : ℕ} (q : Mom L) : Prop := ∀ (l : ℕ) (m : ℤ), l ≤ L → m.natAbs ≤ l → m ≠ 0 → q.get l m = 0

/-- The direction with azimuth `alpha` and polar angle `beta`, to which the rotation with Euler angles `(alpha, beta, gamma)` turns
the z axis. -/
noncomputable def pointing (alpha beta : ℝ) : V3 :=
  ![Real.sin beta * Real.cos alpha, Real.sin beta * Real.sin alpha, Real.cos beta]

/-- The Legendre polynomials, by Bonnet's recursion. -/
noncomputable def bonnetP (x : ℝ) : ℕ → ℝ
  | 0 => 1
  | 1 => x
  | n + 2 => ((2 * n + 3) * x * bonnetP x (n + 1) - (n + 1) * bonnetP x n) / (n + 2)

end Newt.Spec
