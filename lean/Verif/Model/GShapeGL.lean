import Verif.Model.Glib
import Verif.Model.Extern

/-!
# Model of `newt/gShapeGL.py` (point masses at Gauss-Legendre nodes)

`np.polynomial.legendre.leggauss(n)` is a parameter `gl : ℕ → Rule` of every generator: what is assumed
about it (exactness for polynomials of degree below `2 n`) is the hypothesis `Spec.Gauss` of the
theorems.  Floats are exact reals; sizes `dx, dy, ...` are natural numbers.  The three nested loops
visit the rows of the array in order, so the array is the list of what the loops produce.
-/

namespace Newt.GLeg

/-- Nodes and weights, as returned by `np.polynomial.legendre.leggauss`. -/
structure Rule where
  s : ℕ → ℝ
  w : ℕ → ℝ

/-- What a generator does. -/
inductive Out where
  /-- `ValueError` (`leggauss(0)`) -/
  | valueError
  /-- `ZeroDivisionError` -/
  | zeroDiv
  /-- `IndexError` -/
  | indexError
  /-- `return []` -/
  | emptyList
  /-- points whose masses are all NaN -/
  | nan
  /-- a point array -/
  | ok (A : PtArray)

/-- `for k in range(nz): for l in range(ny): for m in range(nx): pointArray[k*ny*nx+l*nx+m] = f k l m`.
newt/gShapeGL.py:44-50, 90-96, 133-139, 178-184, 234-245, 293-299. -/
def rows (nx ny nz : ℕ) (f : ℕ → ℕ → ℕ → Pt) : PtArray :=
  (List.range nz).flatMap fun k => (List.range ny).flatMap fun l => (List.range nx).map fun m => f k l m

/-- `pointArray[:, 0] *= mass/np.sum(pointArray[:, 0])`; a zero sum gives NaN masses, and an empty
array of shape (0, 4) is left alone.  newt/gShapeGL.py:101, 146, 191, 250, 306. -/
noncomputable def rescale (mass : ℝ) (A : PtArray) : Out :=
  let sum := (A.map Pt.mass).sum
  if A = [] then .ok []
  else if sum = 0 then .nan
  else .ok (A.map fun p => ⟨p.mass * (mass / sum), p.pos⟩)

/-- The same after `np.array([... for k in range(...) if ...])`: without points that array is
one-dimensional and `pointArray[:, 0]` raises `IndexError`.  newt/gShapeGL.py:98-101, 141-146, 186-191,
301-306. -/
noncomputable def rescale1 (mass : ℝ) (A : PtArray) : Out :=
  if A = [] then .indexError else rescale mass A

/-- `rectangle(mass, x, y, z, dx, dy, dz)`.  newt/gShapeGL.py:10-51. -/
noncomputable def rectangle (gl : ℕ → Rule) (mass x y z : ℝ) (dx dy dz : ℕ) : Out :=
  if dx = 0 ∨ dy = 0 ∨ dz = 0 then .valueError
  else .ok (rows dx dy dz fun k l m =>
    ⟨mass / 8 * ((gl dx).w m * (gl dy).w l * (gl dz).w k),
      ![(gl dx).s m * x / 2, (gl dy).s l * y / 2, (gl dz).s k * z / 2]⟩)

open Classical

/-- `sphere(mass, r, dd)`.  newt/gShapeGL.py:54-102. -/
noncomputable def sphere (gl : ℕ → Rule) (mass r : ℝ) (dd : ℕ) : Out :=
  if dd = 0 then .valueError
  else if 4 / 3 * Real.pi * r ^ 3 = 0 then .zeroDiv
  else
    let density : ℝ := mass / (4 / 3 * Real.pi * r ^ 3)
    let massnorm : ℝ := density * r ^ 3
    let g := gl dd
    rescale1 mass ((rows dd dd dd fun k l m =>
      ⟨g.w m * g.w l * g.w k * massnorm, ![g.s m * r, g.s l * r, g.s k * r]⟩).filter fun p =>
        p.pos 0 ^ 2 + p.pos 1 ^ 2 + p.pos 2 ^ 2 ≤ r ^ 2)

/-- `annulus(mass, iR, oR, t, dd, dz)`; the z nodes are those of `leggauss(dd)`, so `dz > dd` runs off
their end.  newt/gShapeGL.py:105-148. -/
noncomputable def annulus (gl : ℕ → Rule) (mass iR oR t : ℝ) (dd dz : ℕ) : Out :=
  if dd = 0 then .valueError
  else if dd < dz then .indexError
  else
    let g := gl dd
    rescale1 mass ((rows dd dd dz fun k l m =>
      ⟨g.w m * g.w l * g.w k, ![g.s m * oR, g.s l * oR, g.s k * t]⟩).filter fun p =>
        p.pos 0 ^ 2 + p.pos 1 ^ 2 ≥ iR ^ 2 ∧ p.pos 0 ^ 2 + p.pos 1 ^ 2 ≤ oR ^ 2)

/-- `cone(mass, R, H, dd, dz)`.  With `H = 0` the quotients `z/tanTheta` are NaN and no point is kept.
newt/gShapeGL.py:151-193. -/
noncomputable def cone (gl : ℕ → Rule) (mass R H : ℝ) (dd dz : ℕ) : Out :=
  if R = 0 then .zeroDiv
  else
    let tanTheta : ℝ := H / R
    if dd = 0 then .valueError
    else if dd < dz then .indexError
    else if H = 0 then .indexError
    else
      let g := gl dd
      rescale1 mass ((rows dd dd dz fun k l m =>
        ⟨g.w m * g.w l * g.w k, ![g.s m * R, g.s l * R, g.s k * H]⟩).filter fun p =>
          p.pos 0 ^ 2 + p.pos 1 ^ 2 ≤ (p.pos 2 / tanTheta) ^ 2)

/-- `wedge(mass, iR, oR, t, theta, dd, dz)`.  newt/gShapeGL.py:196-252. -/
noncomputable def wedge (gl : ℕ → Rule) (mass iR oR t theta : ℝ) (dd dz : ℕ) : Out :=
  let xmax : ℝ := oR
  let xmin : ℝ := if theta < Real.pi / 2 then Real.cos theta * iR else Real.cos theta * oR
  let ymax : ℝ := if theta < Real.pi / 2 then Real.sin theta * oR else oR
  let dx : ℝ := (xmax - xmin) / 2
  let xa : ℝ := (xmax + xmin) / 2
  if dd = 0 then .valueError
  else if dd < dz then .indexError
  else
    let g := gl dd
    rescale mass ((rows dd dd dz fun k l m =>
      ⟨g.w m * g.w l * g.w k, ![g.s m * dx + xa, g.s l * ymax, g.s k * t]⟩).filter fun p =>
        |arctan2 (p.pos 1) (p.pos 0)| ≤ theta ∧ Real.sqrt (p.pos 0 ^ 2 + p.pos 1 ^ 2) ≤ oR
          ∧ Real.sqrt (p.pos 0 ^ 2 + p.pos 1 ^ 2) ≥ iR)

/-- `tri_prism(mass, d, y1, y2, t, dx, dy, dz)`.  newt/gShapeGL.py:255-308. -/
noncomputable def triPrism (gl : ℕ → Rule) (mass d y1 y2 t : ℝ) (dx dy dz : ℕ) : Out :=
  if y2 < y1 then .emptyList
  else
    let ymin : ℝ := min 0 y1
    let ymax : ℝ := max 0 y2
    let base : ℝ := (ymax - ymin) / 2
    let yave : ℝ := (ymax + ymin) / 2
    if dx = 0 ∨ dy = 0 ∨ dz = 0 then .valueError
    else
      rescale1 mass ((rows dx dy dz fun k l m =>
        ⟨(gl dx).w m * (gl dy).w l * (gl dz).w k,
          ![(gl dx).s m * d / 2 + d / 2, (gl dy).s l * base / 2 + yave, (gl dz).s k * t / 2]⟩).filter fun p =>
          p.pos 0 * y1 ≤ p.pos 1 * d ∧ p.pos 0 * y2 ≥ p.pos 1 * d)

end Newt.GLeg
