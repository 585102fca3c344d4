import Mathlib.Analysis.SpecialFunctions.Trigonometric.Basic
import Mathlib.LinearAlgebra.CrossProduct

/-!
# Model of `newt/glib.py` (point-mass gravity)

Floats are exact reals.  A value that numpy would fill with NaN (a division by zero that meets a
zero factor) is modelled by `none`; everything else is `some`.
-/

namespace Newt

/-- A Cartesian three-vector (numpy row of three floats). -/
abbrev V3 := Fin 3 → ℝ

/-- One row `[mass, x, y, z]` of a point-mass array.  newt/glib.py:20-23. -/
structure Pt where
  mass : ℝ
  pos : V3

/-- A point-mass array (Nx4 ndarray), in row order.  newt/glib.py:96-99. -/
abbrev PtArray := List Pt

/-- The gravitational constant of the package, as an exact decimal.  newt/constants.py:10. -/
noncomputable def BIG_G : ℝ := 6.67428e-11

/-- numpy true division followed by use as a weight of a vector that vanishes together with the
denominator: a zero denominator gives `inf` or NaN, and `0*inf` is NaN.  Used for
newt/glib.py:36, 43, 75-76, 83-84, 203. -/
noncomputable def fdiv (a b : ℝ) : Option ℝ := if b = 0 then none else some (a / b)

/-- `np.sqrt(np.sum(rvec**2))`.  newt/glib.py:34, 41, 73, 81, 202. -/
noncomputable def modulus (v : V3) : ℝ := Real.sqrt (v 0 ^ 2 + v 1 ^ 2 + v 2 ^ 2)

/-- The contribution of one row of `mass2` to `gmmr2_array`.  newt/glib.py:39-43. -/
noncomputable def gmmr2_term (p q : Pt) : Option V3 :=
  let rvec := q.pos - p.pos
  let r := modulus rvec
  (fdiv (BIG_G * p.mass * q.mass) (r ^ 3)).map fun w => w • rvec

/-- `gmmr2_array(mass1, mass2)` for a two-dimensional `mass2`; `rvec.T.dot(w)` is the sum over the
rows.  newt/glib.py:14-45 (the `else` branch). -/
noncomputable def gmmr2_array (p : Pt) (B : PtArray) : Option V3 :=
  (B.mapM (gmmr2_term p)).map List.sum

/-- `gmmr2_array(mass1, mass2)` for a one-dimensional `mass2` (a single row).
newt/glib.py:30-36. -/
noncomputable def gmmr2_row (p q : Pt) : Option V3 :=
  let rvec := q.pos - p.pos
  let r := modulus rvec
  (fdiv (BIG_G * p.mass * q.mass) (r ^ 3)).map fun w => w • rvec

/-- The contribution of one row of `mass2` to `yukawa_array`.  newt/glib.py:68, 79-84.
`fac = 1/r**3 + 1/(r**2*lmbd)`; a zero `r` or zero `lmbd` makes the product NaN. -/
noncomputable def yukawa_term (alpha lmbd : ℝ) (p q : Pt) : Option V3 :=
  let coef := alpha * BIG_G * p.mass
  let rvec := q.pos - p.pos
  let r := modulus rvec
  (fdiv 1 (r ^ 3)).bind fun f1 =>
  (fdiv 1 (r ^ 2 * lmbd)).bind fun f2 =>
  (fdiv (-r) lmbd).bind fun e =>
  some ((coef * q.mass * Real.exp e * (f1 + f2)) • rvec)

/-- `yukawa_array(mass1, mass2, alpha, lmbd)`.  newt/glib.py:48-86 (the two-dimensional branch). -/
noncomputable def yukawa_array (p : Pt) (B : PtArray) (alpha lmbd : ℝ) : Option V3 :=
  (B.mapM (yukawa_term alpha lmbd p)).map List.sum

/-- The accumulation loop shared by `point_matrix_gravity` and `point_matrix_yukawa`:
`force += forceK; torque += np.cross(mass1[k,1:4], forceK)` starting from zeros.
newt/glib.py:108-120 and 148-160. -/
noncomputable def accumulate (f : Pt → Option V3) : PtArray → V3 × V3 → Option (V3 × V3)
  | [], acc => some acc
  | p :: A, acc =>
    (f p).bind fun forceK =>
      accumulate f A (acc.1 + forceK, acc.2 + crossProduct p.pos forceK)

/-- `point_matrix_gravity(mass1, mass2)` for two-dimensional `mass1`.  newt/glib.py:89-122. -/
noncomputable def point_matrix_gravity (A B : PtArray) : Option (V3 × V3) :=
  accumulate (fun p => gmmr2_array p B) A (0, 0)

/-- `point_matrix_gravity` for a one-dimensional `mass1` (a single row).  newt/glib.py:111-113. -/
noncomputable def point_matrix_gravity_row (p : Pt) (B : PtArray) : Option (V3 × V3) :=
  (gmmr2_array p B).map fun force => (force, crossProduct p.pos force)

/-- `point_matrix_yukawa(mass1, mass2, alpha, lmbd)`.  newt/glib.py:125-162. -/
noncomputable def point_matrix_yukawa (A B : PtArray) (alpha lmbd : ℝ) : Option (V3 × V3) :=
  accumulate (fun p => yukawa_array p B alpha lmbd) A (0, 0)

/-- One row of `translate_point_array`.  newt/glib.py:182-184. -/
def translate_point (d : V3) (p : Pt) : Pt := ⟨p.mass, p.pos + d⟩

/-- `translate_point_array(pointMass, transVec)`.  newt/glib.py:165-190. -/
def translate_point_array (A : PtArray) (d : V3) : PtArray := A.map (translate_point d)

/-- The matrix `W` of `rotate_point_array`.  newt/glib.py:205-207. -/
def rotW (u : V3) : Matrix (Fin 3) (Fin 3) ℝ :=
  !![0, -u 2, u 1; u 2, 0, -u 0; -u 1, u 0, 0]

/-- The matrix `R = I + sin(theta) W + 2 sin(theta/2)^2 W.W` for a unit vector.
newt/glib.py:208. -/
noncomputable def rotR (theta : ℝ) (u : V3) : Matrix (Fin 3) (Fin 3) ℝ :=
  1 + Real.sin theta • rotW u + (2 * Real.sin (theta / 2) ^ 2) • (rotW u * rotW u)

/-- `norm = sqrt(dot(rotVec, rotVec)); unit = rotVec/norm`; a zero vector gives NaN (`none`).
newt/glib.py:202-208. -/
noncomputable def rotMatrix (theta : ℝ) (v : V3) : Option (Matrix (Fin 3) (Fin 3) ℝ) :=
  let norm := modulus v
  if norm = 0 then none else some (rotR theta fun i => v i / norm)

/-- `rotate_point_array(pointMass, theta, rotVec)`.  newt/glib.py:193-219.  A zero axis vector
turns every position of every row into NaN (`none`); an empty array stays empty. -/
noncomputable def rotate_point_array (A : PtArray) (theta : ℝ) (v : V3) : Option PtArray :=
  A.mapM fun p => (rotMatrix theta v).map fun R => ⟨p.mass, R.mulVec p.pos⟩

end Newt
