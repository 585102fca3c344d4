import Verif.Model.Pg2Float
import Verif.Model.MultipoleLib

/-!
# `torque_lm` and `torques_at_angle` in floating point arithmetic

The routines of newt/multipoleLib.py that turn moments into torques, with every operation replaced by what a floating point arithmetic may
return (see Model/Pg2Float.lean).  A run is a relation.

Simplification: the range of exponents is unbounded (no overflow, no underflow), the sign of zero is not modelled; products with an exact zero
(of the pure imaginary factor `1j`) are exact.
-/

namespace Newt.Flt

/-- A complex result whose two components are rounded separately (addition, subtraction of complex numbers). -/
def COp (a : Arith) (z w : ℂ) : Prop := a.op z.re w.re ∧ a.op z.im w.im

/-- A product inside a complex multiplication: rounded, or exact if the machine fuses it with the following addition. -/
def Prod (a : Arith) (x y p : ℝ) : Prop := a.op (x * y) p ∨ p = x * y

/-- The product of two complex numbers: four products, one subtraction, one addition. -/
def CMul (a : Arith) (z w v : ℂ) : Prop :=
  (∃ p r, Prod a z.re w.re p ∧ Prod a z.im w.im r ∧ a.op (p - r) v.re) ∧ ∃ p r, Prod a z.re w.im p ∧ Prod a z.im w.re r ∧ a.op (p + r) v.im

/-- `-4*np.pi*cnst`.  newt/multipoleLib.py:191. -/
def Front (a : Arith) (cnst c : ℝ) : Prop := ∃ p, a.op (-4 * Real.pi) p ∧ a.op (p * cnst) c

/-- One entry of `-4*np.pi*cnst*1j*np.outer(lfac, ms)*qlm*Qlm`, from the left: the factor `1j` turns the real constant into a pure imaginary one,
which is multiplied by the real entry `lfac*m`, by `qlm` and by `Qlm`.  newt/multipoleLib.py:188-191. -/
def Entry (a : Arith) (c : ℝ) (l : ℕ) (m : ℤ) (q Q n : ℂ) : Prop :=
  ∃ (lf o k : ℝ) (z : ℂ), a.op (1 / (2 * l + 1)) lf ∧ a.op (lf * m) o ∧ a.op (c * o) k ∧ a.op (-k * q.im) z.re ∧ a.op (k * q.re) z.im ∧ CMul a z Q n

/-- `torque_lm(qlm, Qlm, cnst)` for arrays of the same degree may return `t`; `nm = np.sum(nlm, 0)` in any order.
newt/multipoleLib.py:184-197. -/
def torque_lm (a : Arith) {L : ℕ} (q Q : Mom L) (cnst : ℝ) (t : TorqueOut L) : Prop :=
  ∃ c, Front a cnst c ∧ (∀ (l : ℕ) (m : ℤ), l ≤ L → m.natAbs ≤ L → Entry a c l m (q.get l m) (Q.get l m) (t.nlm.get l m)) ∧
    ∃ nm : ℤ → ℂ, (∀ m : ℤ, m.natAbs ≤ L → CSum a.op ((List.range (L + 1)).map fun l : ℕ => t.nlm.get l m) (nm m)) ∧
      t.nc.length = L + 1 ∧ t.ns.length = L + 1 ∧
      ∀ k : ℕ, k ≤ L → COp a (nm k + nm (-(k : ℤ))) (t.nc.getD k 0) ∧ COp a (nm k - nm (-(k : ℤ))) (t.ns.getD k 0)

/-- `coef*f(sign*k*angles)` with `f` the cosine or the sine; `sign*k` is an exact integer.  newt/multipoleLib.py:341-344. -/
def Wave (a : Arith) (sign angle : ℝ) (t : ℝ × (ℝ → ℝ) × ℕ) (y : ℝ) : Prop :=
  ∃ x c, a.op (sign * t.2.2 * angle) x ∧ a.lib (t.2.1 x) c ∧ a.op (t.1 * c) y

/-- `signal += y` for the terms `y` one after the other.  newt/multipoleLib.py:340-344. -/
inductive Adds (op : ℝ → ℝ → Prop) : List ℝ → ℝ → ℝ → Prop
  | nil (s : ℝ) : Adds op [] s s
  | cons {y s s' t : ℝ} {ys : List ℝ} : op (s + y) s' → Adds op ys s' t → Adds op (y :: ys) s t

/-- The terms of `signal_c` in order.  newt/multipoleLib.py:340-342. -/
noncomputable def cTerms (tc : List ℂ) : List (ℝ × (ℝ → ℝ) × ℕ) :=
  (List.range (tc.length - 1)).flatMap fun j => [((tc.getD (j + 1) 0).re, Real.cos, j + 1), ((tc.getD (j + 1) 0).im, Real.sin, j + 1)]

/-- The terms of `signal_s` in order (as many as `tc` has).  newt/multipoleLib.py:340, 343-344. -/
noncomputable def sTerms (n : ℕ) (ts : List ℂ) : List (ℝ × (ℝ → ℝ) × ℕ) :=
  (List.range (n - 1)).flatMap fun j => [((ts.getD (j + 1) 0).im, Real.sin, j + 1), ((ts.getD (j + 1) 0).re, Real.cos, j + 1)]

/-- `torques_at_angle(tc, ts, angles, outer)` for one angle may return `t`; no run if the call raises.  newt/multipoleLib.py:332-345. -/
def torques_at_angle (a : Arith) (tc ts : List ℂ) (angle : ℝ) (outer : Bool) (t : ℝ) : Prop :=
  tc ≠ [] ∧ tc.length ≤ ts.length ∧ ∃ (c0 s0 sc ss : ℝ) (xs ys : List ℝ), a.op ((tc.getD 0 0).re / 2) c0 ∧ a.op ((ts.getD 0 0).im / 2) s0 ∧
    List.Forall₂ (Wave a (if outer then -1 else 1) angle) (cTerms tc) xs ∧ Adds a.op xs c0 sc ∧
    List.Forall₂ (Wave a (if outer then -1 else 1) angle) (sTerms tc.length ts) ys ∧ Adds a.op ys s0 ss ∧ a.op (sc + ss) t

end Newt.Flt
