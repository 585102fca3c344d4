import Verif.Model.Glib
import Mathlib.Data.Finset.Basic
import Mathlib.Data.Fintype.Basic

/-!
# `newt/glib.py` in floating point arithmetic

The same routines as Model/Glib.lean, but every arithmetic operation may return any number within a relative distance `u` of the exact
result (the standard model of floating point arithmetic; `u = 2^-53` for IEEE doubles rounded to nearest).  A run is a relation: different
libraries, compilers and summation orders give different runs, and the theorems hold for all of them.

Simplification: the range of exponents is unbounded (no overflow, no underflow), the inputs (masses, coordinates) are exact.
-/

namespace Newt.Flt

/-- `y` is a correctly rounded (to relative accuracy `u`) value of `x`. -/
def Rd (u x y : ℝ) : Prop := |y - x| ≤ u * |x|

/-- `rvec = mass2[:, 1:4]-mass1[1:4]`, one row.  newt/glib.py:39. -/
def RVec (u : ℝ) (p q : Pt) (rv : V3) : Prop := ∀ i, Rd u (q.pos i - p.pos i) (rv i)

/-- `r = np.sqrt(np.sum(rvec**2, 1))`, one row: three squares, two additions from the left, one root.  newt/glib.py:41. -/
def Mod (u : ℝ) (rv : V3) (r : ℝ) : Prop :=
  ∃ s : V3, (∀ i, Rd u (rv i ^ 2) (s i)) ∧ ∃ t t', Rd u (s 0 + s 1) t ∧ Rd u (t + s 2) t' ∧ Rd u (Real.sqrt t') r

/-- `BIG_G*mass1[0]*mass2[:, 0]/r**3`, one row; the decimal constant is itself rounded.  No value if the computed cube is zero (the division
then gives `inf`, and a NaN in the product with the vanishing `rvec`).  newt/glib.py:43, newt/constants.py:10. -/
def Weight (u : ℝ) (p q : Pt) (r w : ℝ) : Prop :=
  ∃ g a b c, Rd u BIG_G g ∧ Rd u (g * p.mass) a ∧ Rd u (a * q.mass) b ∧ Rd u (r ^ 3) c ∧ c ≠ 0 ∧ Rd u (b / c) w

/-- A dot product of the rows in `S` in any order of summation, with or without fused multiplications (what BLAS leaves open).
Adding an accumulator that is still zero is exact and left out. -/
inductive Dot {n : ℕ} (u : ℝ) (x w : Fin n → ℝ) : Finset (Fin n) → ℝ → Prop
  | one (j : Fin n) {s : ℝ} : Rd u (x j * w j) s → Dot u x w {j} s
  | add {S S' : Finset (Fin n)} {s s' z : ℝ} : Disjoint S S' → Dot u x w S s → Dot u x w S' s' → Rd u (s + s') z → Dot u x w (S ∪ S') z
  | fma {S : Finset (Fin n)} {s z : ℝ} (j : Fin n) : j ∉ S → Dot u x w S s → Rd u (x j * w j + s) z → Dot u x w (insert j S) z

/-- `force = rvec.T.dot(w)`: `gmmr2_array(mass1, mass2)` for a two-dimensional `mass2`; the sum over no rows is zero.
newt/glib.py:37-45. -/
def gmmr2_array (u : ℝ) (p : Pt) (B : PtArray) (F : V3) : Prop :=
  ∃ (rv : Fin B.length → V3) (w : Fin B.length → ℝ), (∀ j, RVec u p (B.get j) (rv j) ∧ ∃ r, Mod u (rv j) r ∧ Weight u p (B.get j) r (w j)) ∧
    ∀ i, (B = [] ∧ F i = 0) ∨ Dot u (fun j => rv j i) w Finset.univ (F i)

/-- One component of `np.cross`: two products and a subtraction.  newt/glib.py:113, 117. -/
def CrossC (u a b c d z : ℝ) : Prop := ∃ s t, Rd u (a * b) s ∧ Rd u (c * d) t ∧ Rd u (s - t) z

/-- `np.cross(mass1[k, 1:4], forceK)`.  newt/glib.py:113, 117. -/
def Cross (u : ℝ) (x F T : V3) : Prop :=
  CrossC u (x 1) (F 2) (x 2) (F 1) (T 0) ∧ CrossC u (x 2) (F 0) (x 0) (F 2) (T 1) ∧ CrossC u (x 0) (F 1) (x 1) (F 0) (T 2)

/-- The loop shared by `point_matrix_gravity` and `point_matrix_yukawa`, from the accumulators `f0`, `t0` to the result; `row p F` says that the
inner routine may return `F` for the row `p`.  newt/glib.py:115-120, 155-160. -/
inductive Loop (u : ℝ) (row : Pt → V3 → Prop) : PtArray → V3 → V3 → V3 → V3 → Prop
  | nil (f t : V3) : Loop u row [] f t f t
  | cons {p : Pt} {A : PtArray} {f0 t0 fk tk f1 t1 f t : V3} : row p fk → Cross u p.pos fk tk →
      (∀ i, Rd u (f0 i + fk i) (f1 i)) → (∀ i, Rd u (t0 i + tk i) (t1 i)) → Loop u row A f1 t1 f t → Loop u row (p :: A) f0 t0 f t

/-- `point_matrix_gravity(mass1, mass2)` in floating point arithmetic may return `(F, T)`.  newt/glib.py:89-122. -/
def point_matrix_gravity (u : ℝ) (A B : PtArray) (F T : V3) : Prop := Loop u (fun p => gmmr2_array u p B) A 0 0 F T

/-- `coef*mass2[:, 0]*np.exp(-r/lmbd)*fac` with `coef = alpha*BIG_G*mass1[0]` and `fac = (1/r**3 + 1/(r**2*lmbd))`, one row.  The two computed
divisors must not vanish (NaN otherwise).  newt/glib.py:68, 82-84. -/
def YukWeight (u alpha lmbd : ℝ) (p q : Pt) (r w : ℝ) : Prop :=
  ∃ g a c, Rd u BIG_G g ∧ Rd u (alpha * g) a ∧ Rd u (a * p.mass) c ∧
  ∃ c3 i3 c2 d2 i2 fac, Rd u (r ^ 3) c3 ∧ c3 ≠ 0 ∧ Rd u (1 / c3) i3 ∧ Rd u (r ^ 2) c2 ∧ Rd u (c2 * lmbd) d2 ∧ d2 ≠ 0 ∧ Rd u (1 / d2) i2 ∧
    Rd u (i3 + i2) fac ∧
  ∃ cm x e ce, Rd u (c * q.mass) cm ∧ Rd u (-r / lmbd) x ∧ Rd u (Real.exp x) e ∧ Rd u (cm * e) ce ∧ Rd u (ce * fac) w

/-- `yukawa_array(mass1, mass2, alpha, lmbd)` for a two-dimensional `mass2`.  newt/glib.py:68, 77-86. -/
def yukawa_array (u alpha lmbd : ℝ) (p : Pt) (B : PtArray) (F : V3) : Prop :=
  ∃ (rv : Fin B.length → V3) (w : Fin B.length → ℝ), (∀ j, RVec u p (B.get j) (rv j) ∧ ∃ r, Mod u (rv j) r ∧ YukWeight u alpha lmbd p (B.get j) r (w j)) ∧
    ∀ i, (B = [] ∧ F i = 0) ∨ Dot u (fun j => rv j i) w Finset.univ (F i)

/-- `point_matrix_yukawa(mass1, mass2, alpha, lmbd)` in floating point arithmetic may return `(F, T)`.  newt/glib.py:125-162. -/
def point_matrix_yukawa (u : ℝ) (A B : PtArray) (alpha lmbd : ℝ) (F T : V3) : Prop :=
  Loop u (fun p => yukawa_array u alpha lmbd p B) A 0 0 F T

/-- `translate_point_array(pointMass, transVec)`: the masses are copied, every coordinate is one rounded addition.  newt/glib.py:165-190. -/
def translate_point_array (u : ℝ) (A : PtArray) (d : V3) (A' : PtArray) : Prop :=
  List.Forall₂ (fun p p' => p'.mass = p.mass ∧ ∀ i, Rd u (p.pos i + d i) (p'.pos i)) A A'

/-- `norm = np.sqrt(np.dot(rotVec, rotVec))` and `unit = rotVec/norm`.  No value if the computed norm is zero (NaN).  newt/glib.py:202-203. -/
def Unit (u : ℝ) (rotVec unit : V3) : Prop :=
  ∃ s norm, Dot u rotVec rotVec Finset.univ s ∧ Rd u (Real.sqrt s) norm ∧ norm ≠ 0 ∧ ∀ i, Rd u (rotVec i / norm) (unit i)

/-- `R = np.identity(3)+np.sin(theta)*W+2*(np.sin(theta/2.)**2)*W.dot(W)`: one rounding per operation and entry, from left to right; the product
of the two matrices in any order of summation.  The sines are rounded values of the exact sines of the given angle and of its half (halving is
exact in binary).  The entries of `W` are copies of those of `unit` with a sign, `rotW` of Model/Glib.lean.  newt/glib.py:205-208. -/
def RotMatrix (u theta : ℝ) (unit : V3) (R : Matrix (Fin 3) (Fin 3) ℝ) : Prop :=
  ∃ s h c c2, Rd u (Real.sin theta) s ∧ Rd u (Real.sin (theta / 2)) h ∧ Rd u (h ^ 2) c ∧ Rd u (2 * c) c2 ∧
    ∀ i j, ∃ a b w d, Rd u (s * rotW unit i j) a ∧ Rd u ((1 : Matrix (Fin 3) (Fin 3) ℝ) i j + a) b ∧
      Dot u (fun k => rotW unit i k) (fun k => rotW unit k j) Finset.univ w ∧ Rd u (c2 * w) d ∧ Rd u (b + d) (R i j)

/-- `rotate_point_array(pointMass, theta, rotVec)`: the masses are copied, each new coordinate is a dot product of a row of `R` with the position.
An array without rows needs no matrix.  newt/glib.py:193-219. -/
def rotate_point_array (u : ℝ) (A : PtArray) (theta : ℝ) (rotVec : V3) (A' : PtArray) : Prop :=
  (A = [] ∧ A' = []) ∨ ∃ unit R, Unit u rotVec unit ∧ RotMatrix u theta unit R ∧
    List.Forall₂ (fun p p' => p'.mass = p.mass ∧ ∀ i, Dot u (fun j => R i j) p.pos Finset.univ (p'.pos i)) A A'

end Newt.Flt
