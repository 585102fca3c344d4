import Verif.Spec.MomRounding
import Verif.Model.RecFloat

/-!
# Specification: the accuracy of the recursive Wigner matrices
-/

namespace Newt.Spec

/-- The library's associated Legendre functions, normalised to values of at most one, have an error of at most `eps` up to degree `n`. -/
def LegAccurate (leg : Flt.Leg) (n : ℕ) (eps : ℝ) : Prop :=
  0 ≤ eps ∧ ∀ m k x p, m ≤ k → k ≤ n → |x| ≤ 1 → leg m k x p → Real.sqrt ((k - m).factorial / (k + m).factorial) * |p - lpmv m k x| ≤ eps

/-- Computed cosines do not exceed one. -/
def UnitSafe (a : Flt.Arith) : Prop := ∀ x y, |x| ≤ 1 → a.lib x y → |y| ≤ 1

/-- The angle that a rounded cosine of `beta` stands for differs from `beta` by at most `d`. -/
def AngleAccuracy (u beta d : ℝ) : Prop := 0 ≤ d ∧ ∀ c, |c| ≤ 1 → |c - Real.cos beta| ≤ u * |Real.cos beta| → |Real.arccos c - beta| ≤ d

/-- The error of the starting values of the degrees `n` and `n+1`: of the factorials, of the Legendre functions, and of the angle that the
rounded cosine stands for. -/
noncomputable def startErr (u eps d : ℝ) (n : ℕ) : ℝ :=
  Real.exp (relErr u 2 * Real.log (2 * (n + 1)).factorial) * (1 + relErr u 3) * (1 + eps) - 1 + (n + 1) * d

/-- The error of an entry of degree `n` after the recursion. -/
noncomputable def recErr (u eps d : ℝ) (n : ℕ) : ℝ := 3 ^ n * (3 * startErr u eps d n + 35 * u)

/-- The constant `np.pi` is accurate to `u`, not larger than `pi`, and rounding does not carry over it nor over its double. -/
structure HalfTurn (a : Flt.Arith) (u pi0 : ℝ) : Prop where
  le : pi0 ≤ Real.pi
  close : Real.pi - pi0 ≤ u * Real.pi
  half : ∀ x y, a.op x y → x ≤ pi0 → y ≤ pi0
  full : ∀ x y, a.op x y → x ≤ 2 * pi0 → y ≤ 2 * pi0
  full' : ∀ x y, a.op x y → 2 * pi0 ≤ x → 2 * pi0 ≤ y

/-- `np.pi` in double precision. -/
noncomputable def npPi : ℝ := 884279719003555 / 2 ^ 48

/-- What the reduction of the angle to `[0, pi]` can change it by. -/
noncomputable def turnErr (u beta : ℝ) : ℝ := u * (2 * |beta| + 22)

/-- The angle that a rounded cosine of the reduced angle stands for differs from it by at most `d`. -/
def TurnAccuracy (u beta d : ℝ) : Prop := 0 ≤ d ∧ ∀ b, 0 ≤ b → b ≤ Real.pi → abs (Real.sin b - |Real.sin beta|) ≤ turnErr u beta → AngleAccuracy u b d

/-- The growth factor of an entry of the Wigner matrix of degree `n` for a reduced angle. -/
noncomputable def recGrow (u eps d alpha gamma : ℝ) (n : ℕ) : ℝ :=
  (1 + recErr u eps d n) * ((1 + u * (n * |alpha|)) * (1 + u * (n * |gamma|)) * (1 + relErr u 10))

/-- The growth factor of an entry of the Wigner matrix of degree `n`. -/
noncomputable def wigGrow (u eps d alpha beta gamma : ℝ) (n : ℕ) : ℝ := recGrow u eps d alpha gamma n + (n + 1) * turnErr u beta

end Newt.Spec
