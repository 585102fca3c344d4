import Verif.Model.Glib
import Verif.Model.Extern

/-!
# Model of `newt/glibShapes.py` (point-mass discretisations of solids)

Floats are exact reals and the parameters are taken to be Python floats (so that a zero denominator
that involves no numpy value raises `ZeroDivisionError`).  Grid sizes are natural numbers.  The
three nested loops `for k / for l / for m` become the list `grid`; `pointArray[ctr, 1:] = ...;
ctr += 1` under a condition and `pointArray[:ctr]` become a `filter`.
-/

namespace Newt.Shp

/-- What a generator does. -/
inductive Out where
  /-- `ZeroDivisionError` -/
  | zeroDiv
  /-- `IndexError` (`pointArray[:, 0]` on an empty one-dimensional array) -/
  | indexError
  /-- `return []` -/
  | emptyList
  /-- points whose masses are all NaN -/
  | nan
  /-- a point array -/
  | ok (A : PtArray)

/-- `(i-(n-1)/2)*h + c`: the `i`-th of `n` grid nodes with spacing `h` centred on `c`. -/
noncomputable def node (i n : ℕ) (h c : ℝ) : ℝ := ((i : ℝ) - ((n : ℝ) - 1) / 2) * h + c

/-- `for k in range(nz): for l in range(ny): for m in range(nx): ...`, in loop order. -/
def grid (nx ny nz : ℕ) (f : ℕ → ℕ → ℕ → V3) : List V3 :=
  (List.range nz).flatMap fun k => (List.range ny).flatMap fun l => (List.range nx).map fun m => f k l m

/-- All grid points `(x, y, z)` of a box grid. -/
noncomputable def box (nx ny nz : ℕ) (hx cx hy cy hz cz : ℝ) : List V3 :=
  grid nx ny nz fun k l m => ![node m nx hx cx, node l ny hy cy, node k nz hz cz]

/-- `pointArray[:, 0] = pointMass` ... `pointArray[:, 0] *= mass/np.sum(pointArray[:, 0])` on the
kept points.  A zero sum gives `0*inf` or NaN; the scaling of an empty slice does nothing. -/
noncomputable def rescale (mass pointMass : ℝ) (pts : List V3) : Out :=
  let sum := (pts.map fun _ => pointMass).sum
  if pts = [] then .ok []
  else if sum = 0 then .nan
  else .ok (pts.map fun p => ⟨pointMass * (mass / sum), p⟩)

/-- The same for the two generators that rebuild the array with `np.array([...])`: without points
the array is one-dimensional and `pointArray[:, 0]` fails.  newt/glibShapes.py:185-190, 544-549. -/
noncomputable def rescale1 (mass pointMass : ℝ) (pts : List V3) : Out :=
  if pts = [] then .indexError else rescale mass pointMass pts

open Classical

/-- `sphere(mass, R, N)`.  newt/glibShapes.py:57-98. -/
noncomputable def sphere (mass R : ℝ) (N : ℕ) : Out :=
  if N = 0 then .zeroDiv
  else
    let h := R / N
    rescale mass (mass / (N : ℝ) ^ 3) ((box N N N h 0 h 0 h 0).filter fun v =>
      Real.sqrt (v 0 ^ 2 + v 1 ^ 2 + v 2 ^ 2) ≤ R)

/-- `rectangle(mass, x, y, z, nx, ny, nz)`; note `(l-(nx-1)/2)` in the `y` column.
newt/glibShapes.py:101-140. -/
noncomputable def rectangle (mass x y z : ℝ) (nx ny nz : ℕ) : Out :=
  if nx * ny * nz = 0 then .zeroDiv
  else .ok ((grid nx ny nz fun k l m =>
      ![node m nx (x / nx) 0, ((l : ℝ) - ((nx : ℝ) - 1) / 2) * (y / ny), node k nz (z / nz) 0]).map fun p =>
    ⟨mass / ((nx * ny * nz : ℕ) : ℝ), p⟩)

/-- `annulus(mass, r1, r2, t, nx, nz)`.  newt/glibShapes.py:143-192. -/
noncomputable def annulus (mass r1 r2 t : ℝ) (nx nz : ℕ) : Out :=
  if nz = 0 ∨ nx = 0 ∨ Real.pi * (r2 ^ 2 - r1 ^ 2) * t = 0 then .zeroDiv
  else
    let zgrid := t / nz
    let xgrid := r2 * 2 / nx
    let density := mass / (Real.pi * (r2 ^ 2 - r1 ^ 2) * t)
    rescale1 mass (density * xgrid * xgrid * zgrid) ((box nx nx nz xgrid 0 xgrid 0 zgrid 0).filter fun v =>
      r1 ^ 2 ≤ v 0 ^ 2 + v 1 ^ 2 ∧ v 0 ^ 2 + v 1 ^ 2 ≤ r2 ^ 2)

/-- `cone(mass, R, H, beta, nx, nz)`.  newt/glibShapes.py:195-255. -/
noncomputable def cone (mass R H beta : ℝ) (nx nz : ℕ) : Out :=
  let xmin := if beta < Real.pi / 2 then 0 else Real.cos beta * R
  let ymax := if beta < Real.pi / 2 then Real.sin beta * R else R
  if nz = 0 ∨ nx = 0 ∨ Real.pi * H * R ^ 2 / 3 = 0 then .zeroDiv
  else
    let zgrid := H / nz
    let xgrid := (R - xmin) / nx
    let ygrid := 2 * ymax / nx
    let density := mass / (Real.pi * H * R ^ 2 / 3)
    rescale mass (density * xgrid * ygrid * zgrid)
      ((box nx nx nz xgrid ((R + xmin) / 2) ygrid 0 zgrid (H / 2)).filter fun v =>
        |arctan2 (v 1) (v 0)| ≤ beta ∧
          Real.sqrt (v 0 ^ 2 + v 1 ^ 2) ^ 2 ≤ R ^ 2 * (1 - v 2 / H) ^ 2)

/-- `spherical_random_shell(mass, r, N)` as a function of the random pairs drawn
(`rand.rand(...)*2 - 1`, each entry in `[-1, 1)`).  newt/glibShapes.py:258-297. -/
noncomputable def sphericalRandomShell (mass r : ℝ) (draws : List (ℝ × ℝ)) : Out :=
  let x := draws.filter fun p => p.1 ^ 2 + p.2 ^ 2 < 1
  if x.length = 0 then .zeroDiv
  else .ok (x.map fun p =>
    let sx2 := p.1 ^ 2 + p.2 ^ 2
    ⟨mass / x.length, ![2 * p.1 * Real.sqrt (1 - sx2) * r, 2 * p.2 * Real.sqrt (1 - sx2) * r,
      (1 - 2 * sx2) * r]⟩)

/-- `wedge(mass, r1, r2, t, beta, nx, nz)`.  newt/glibShapes.py:300-363.  For `beta < pi/2` the
divisions by `nx` have a numpy numerator and do not raise. -/
noncomputable def wedge (mass r1 r2 t beta : ℝ) (nx nz : ℕ) : Out :=
  let xmin := if beta < Real.pi / 2 then Real.cos beta * r1 else Real.cos beta * r2
  let ymax := if beta < Real.pi / 2 then Real.sin beta * r2 else r2
  if nz = 0 ∨ (nx = 0 ∧ ¬ beta < Real.pi / 2) ∨ Real.pi * (r2 ^ 2 - r1 ^ 2) * t = 0 then .zeroDiv
  else
    let zgrid := t / nz
    let xgrid := (r2 - xmin) / nx
    let ygrid := 2 * ymax / nx
    let density := mass / (Real.pi * (r2 ^ 2 - r1 ^ 2) * t)
    rescale mass (density * xgrid * ygrid * zgrid)
      ((box nx nx nz xgrid ((r2 + xmin) / 2) ygrid 0 zgrid 0).filter fun v =>
        |arctan2 (v 1) (v 0)| ≤ beta ∧ Real.sqrt (v 0 ^ 2 + v 1 ^ 2) ≤ r2 ∧
          r1 ≤ Real.sqrt (v 0 ^ 2 + v 1 ^ 2))

/-- `trapezoid(mass, r1, r2, t, beta, nx, nz)`; for `beta >= pi/2` the zero array is returned.
newt/glibShapes.py:366-426. -/
noncomputable def trapezoid (mass r1 r2 t beta : ℝ) (nx nz : ℕ) : Out :=
  let xclose := r1 * Real.cos beta
  let xfar := r2 * Real.cos beta
  let d := r2 * Real.sin beta
  if nz = 0 ∨ Real.pi * (r2 ^ 2 - r1 ^ 2) * t = 0 then .zeroDiv
  else if Real.pi / 2 ≤ beta then .ok (List.replicate (nx * nx * nz) ⟨0, 0⟩)
  else
    let zgrid := t / nz
    let xgrid := (xfar - xclose) / nx
    let ygrid := 2 * d / nx
    let density := mass / (Real.pi * (r2 ^ 2 - r1 ^ 2) * t)
    rescale mass (density * xgrid * ygrid * zgrid)
      ((box nx nx nz xgrid ((xfar + xclose) / 2) ygrid 0 zgrid 0).filter fun v =>
        |arctan2 (v 1) (v 0)| ≤ beta)

/-- `outer_cone(mass, r1, r2, H, beta, nx, nz)`.  newt/glibShapes.py:429-495. -/
noncomputable def outerCone (mass r1 r2 H beta : ℝ) (nx nz : ℕ) : Out :=
  let xmin := if beta < Real.pi / 2 then Real.cos beta * r1 else Real.cos beta * r2
  let ymax := if beta < Real.pi / 2 then Real.sin beta * r2 else r2
  let Hp := H * r2 / (r2 - r1)
  let vol := beta * (Hp * r2 ^ 2 / 3 - H * r1 ^ 2 - (Hp - H) * r1 ^ 2 / 3)
  if nz = 0 ∨ (nx = 0 ∧ ¬ beta < Real.pi / 2) ∨ r2 - r1 = 0 ∨ vol = 0 then .zeroDiv
  else
    let zgrid := H / nz
    let xgrid := (r2 - xmin) / nx
    let ygrid := 2 * ymax / nx
    let density := mass / vol
    let tanPhi := H / (r2 - r1)
    rescale mass (density * xgrid * ygrid * zgrid)
      ((box nx nx nz xgrid ((r2 + xmin) / 2) ygrid 0 zgrid (H / 2)).filter fun v =>
        |arctan2 (v 1) (v 0)| ≤ beta ∧ Real.sqrt (v 0 ^ 2 + v 1 ^ 2) ≤ r2 - v 2 / tanPhi ∧
          r1 ≤ Real.sqrt (v 0 ^ 2 + v 1 ^ 2))

/-- `tri_prism(mass, d, y1, y2, t, nx, ny, nz)`; note `yave = base/2`.
newt/glibShapes.py:498-551. -/
noncomputable def triPrism (mass d y1 y2 t : ℝ) (nx ny nz : ℕ) : Out :=
  if y2 < y1 then .emptyList
  else if nz = 0 ∨ nx = 0 ∨ t * (y2 - y1) * d / 2 = 0 then .zeroDiv
  else
    let base := max 0 y2 - min 0 y1
    let yave := base / 2
    let zgrid := t / nz
    let xgrid := d / nx
    let ygrid := base / ny
    let density := mass / (t * (y2 - y1) * d / 2)
    rescale1 mass (density * (xgrid * ygrid * zgrid / 2))
      ((box nx ny nz xgrid (d / 2) ygrid yave zgrid 0).filter fun v =>
        v 0 * y1 ≤ v 1 * d ∧ v 0 * y2 ≥ v 1 * d)

/-- `tetrahedron(mass, x, y1, y2, z, nx, ny, nz)`.  newt/glibShapes.py:554-616. -/
noncomputable def tetrahedron (mass x y1 y2 z : ℝ) (nx ny nz : ℕ) : Out :=
  if y2 < y1 then .emptyList
  else if nz = 0 ∨ nx = 0 ∨ z * (y2 - y1) * x / 6 = 0 then .zeroDiv
  else
    let base := max 0 y2 - min 0 y1
    let yave := base / 2
    let zgrid := z / nz
    let xgrid := x / nx
    let ygrid := base / ny
    let density := mass / (z * (y2 - y1) * x / 6)
    rescale mass (density * (xgrid * ygrid * zgrid / 2))
      ((box nx ny nz xgrid (x / 2) ygrid yave zgrid (z / 2)).filter fun v =>
        v 0 * y1 ≤ v 1 * x ∧ v 0 * y2 ≥ v 1 * x ∧ v 2 ≤ z * (1 - v 0 / x))

/-- `ngon_prism(mass, H, a, N, nx, nz)`.  newt/glibShapes.py:619-677.  `np.tan`, `np.sin` return
numpy values, so only `H/nz` and `np.pi/N` can raise. -/
noncomputable def ngonPrism (mass H a : ℝ) (N nx nz : ℕ) : Out :=
  if N = 0 ∨ nz = 0 then .zeroDiv
  else
    let phih := Real.pi / N
    let b := a / (2 * Real.tan phih)
    let d := a / (2 * Real.sin phih)
    let zgrid := H / nz
    let xgrid := 2 * d / nx
    let density := mass / (N * H * a * b / 2)
    rescale mass (density * (xgrid * xgrid * zgrid / 2))
      ((box nx nx nz xgrid 0 xgrid 0 zgrid 0).filter fun v =>
        let q := pyMod (arctan2 (v 1) (v 0)) (2 * phih)
        let qsect := if phih < q then q - 2 * phih else q
        Real.sqrt (v 0 ^ 2 + v 1 ^ 2) * Real.cos qsect ≤ b)

/-- `pyramid(mass, x, y, z, nx, ny, nz)`; note the grid spans `x`, not `2*x`.
newt/glibShapes.py:680-751. -/
noncomputable def pyramid (mass x y z : ℝ) (nx ny nz : ℕ) : Out :=
  if nz = 0 ∨ nx = 0 ∨ ny = 0 ∨ z * y * x / 3 = 0 then .zeroDiv
  else
    let zgrid := z / nz
    let xgrid := x / nx
    let ygrid := y / ny
    let density := mass / (z * y * x / 3)
    rescale mass (density * (xgrid * ygrid * zgrid / 3))
      ((box nx ny nz xgrid 0 ygrid 0 zgrid (z / 2)).filter fun v =>
        let yx := v 1 * x / 2
        let xy := v 0 * y / 2
        let xr := 2 * v 0 / x
        let yr := 2 * v 1 / y
        (xy ≤ yx ∧ xy ≥ -yx ∧ v 2 ≤ z * (1 - yr)) ∨
        (xy ≥ yx ∧ xy ≤ -yx ∧ v 2 ≤ z * (1 + yr)) ∨
        (xy ≤ yx ∧ xy ≤ -yx ∧ v 2 ≤ z * (1 + xr)) ∨
        (xy ≥ yx ∧ xy ≥ -yx ∧ v 2 ≤ z * (1 - xr)))

/-- `cylhole(mass, r, R, nx, nz)`.  newt/glibShapes.py:754-806. -/
noncomputable def cylhole (mass r R : ℝ) (nx nz : ℕ) : Out :=
  if nz = 0 ∨ nx = 0 ∨ 16 * R * r ^ 2 / 3 = 0 then .zeroDiv
  else
    let zgrid := 2 * R / nz
    let xgrid := 2 * r / nx
    let density := mass / (16 * R * r ^ 2 / 3)
    rescale mass (density * xgrid * xgrid * zgrid)
      ((box nx nx nz xgrid 0 xgrid 0 zgrid 0).filter fun v =>
        Real.sqrt (v 0 ^ 2 + v 1 ^ 2) ≤ r ∧ Real.sqrt (v 1 ^ 2 + v 2 ^ 2) ≤ R)

/-- `platehole(mass, t, r, theta, nx, ny, nz)`.  newt/glibShapes.py:809-866.  The density has a
numpy denominator: a zero one makes every mass NaN. -/
noncomputable def platehole (mass t r theta : ℝ) (nx ny nz : ℕ) : Out :=
  if nz = 0 ∨ ny = 0 then .zeroDiv
  else
    let s := Real.tan theta
    let x := 2 * (r + t * s / 2)
    let zgrid := t / nz
    let xgrid := 2 * x / nx
    let ygrid := 2 * r / ny
    let density := mass / (Real.pi * Real.sqrt (1 + s ^ 2) * t * r ^ 2)
    rescale mass (density * xgrid * ygrid * zgrid)
      ((box nx ny nz xgrid 0 ygrid 0 zgrid 0).filter fun v =>
        v 1 ^ 2 + (v 0 - v 2 * s) ^ 2 ≤ r ^ 2)

/-- `cart_2_cyl(XYZ)`, one row.  newt/glibShapes.py:13-32. -/
noncomputable def cart2cyl (v : V3) : V3 :=
  ![Real.sqrt (v 0 ^ 2 + v 1 ^ 2), pyMod (arctan2 (v 1) (v 0) + 2 * Real.pi) (2 * Real.pi), v 2]

/-- `cyl_2_cart(RQZ)`, one row.  newt/glibShapes.py:35-54. -/
noncomputable def cyl2cart (v : V3) : V3 := ![v 0 * Real.cos (v 1), v 0 * Real.sin (v 1), v 2]

end Newt.Shp
