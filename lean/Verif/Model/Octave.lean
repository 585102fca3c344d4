import Verif.Model.Glib
import Verif.Model.Extern

/-!
# Model of `matlab-src` (the Octave implementation of point gravity)

Floats are exact reals.  A point-mass array is the same N-by-4 matrix `[mass, x, y, z]` as in the Python package.
`none` (or `Ret.nan`) stands for a result full of NaN.  Octave loops `for i = 1:n` run over `List.range n`, the loop
variable being `i + 1`.  Arrays with no rows are taken to be `0 x 4`.
-/

namespace Newt.Oct

open scoped Matrix

/-- The script `fundamentalConstants`.  matlab-src/fundamentalConstants.m:17. -/
noncomputable def G : ℝ := 6.67428e-11

/-- `Gmmr2Array(mass1, mass2)`: `rvec' * (G * mass1(1) * mass2(:,1) ./ r .^ 3)`, one term per row of `mass2`; a zero
distance makes every component of the product NaN.  matlab-src/Gmmr2Array.m:17-30. -/
noncomputable def Gmmr2Array (mass1 : Pt) (mass2 : PtArray) : Option V3 :=
  let rvec := mass2.map fun q => q.pos - mass1.pos
  let r := rvec.map fun d => Real.sqrt (d 0 * d 0 + d 1 * d 1 + d 2 * d 2)
  if r.any (fun x => x = 0) then none
  else
    let w := List.zipWith (fun q x => G * mass1.mass * q.mass / x ^ 3) mass2 r
    some (List.zipWith (fun d c => c • d) rvec w).sum

/-- The vector product `cross(a, b, 2)` of Octave, written out. -/
def cross (a b : V3) : V3 := ![a 1 * b 2 - a 2 * b 1, a 2 * b 0 - a 0 * b 2, a 0 * b 1 - a 1 * b 0]

/-- `pointMatrixGravity(array1, array2)`, returning `(force, torque)`.  matlab-src/pointMatrixGravity.m:18-33. -/
noncomputable def pointMatrixGravity (array1 array2 : PtArray) : Option (V3 × V3) :=
  array1.foldl (fun acc p => acc.bind fun ft => (Gmmr2Array p array2).map fun iforce =>
    (ft.1 + iforce, ft.2 + cross p.pos iforce)) (some (0, 0))

/-- The matrix `R` of `rotatePMArray` for a unit vector.  matlab-src/rotatePMArray.m:27-32. -/
noncomputable def R (angle x y z : ℝ) : Matrix (Fin 3) (Fin 3) ℝ :=
  let c := Real.cos angle
  let s := Real.sin angle
  let t := 1 - c
  !![t * x * x + c, t * x * y + s * z, t * x * z - s * y;
     t * x * y - s * z, t * y * y + c, t * y * z + s * x;
     t * x * z + s * y, t * y * z - s * x, t * z * z + c]

/-- `rotatePMArray(array, angle, rotVec)`; a zero `rotVec` turns the positions of every row into NaN.
matlab-src/rotatePMArray.m:19-43. -/
noncomputable def rotatePMArray (array : PtArray) (angle : ℝ) (rotVec : V3) : Option PtArray :=
  let modulus := Real.sqrt (rotVec 0 * rotVec 0 + rotVec 1 * rotVec 1 + rotVec 2 * rotVec 2)
  if array = [] then some []
  else if modulus = 0 then none
  else some (array.map fun p =>
    ⟨p.mass, (R angle (rotVec 0 / modulus) (rotVec 1 / modulus) (rotVec 2 / modulus)).mulVec p.pos⟩)

/-- `translatePMArray(array, transVec)`.  matlab-src/translatePMArray.m:18-23. -/
def translatePMArray (array : PtArray) (transVec : V3) : PtArray := array.map fun p => ⟨p.mass, p.pos + transVec⟩

/-- GSL's `legendre_sphPlm(l, m, x) = sqrt((2l+1)/(4 pi)) sqrt((l-m)!/(l+m)!) P_l^m(x)` for `0 <= m <= l` (with the
Condon-Shortley phase, as the test in YLM.m:25-41 says).  Trusted reading of an external function. -/
noncomputable def legendre_sphPlm (l m : ℕ) (x : ℝ) : ℝ :=
  Real.sqrt ((2 * l + 1) / (4 * Real.pi) * ((l - m).factorial / (l + m).factorial)) * lpmv m l x

/-- `YLM(l, m, theta, phi)` for `0 <= m <= l`.  matlab-src/YLM.m:16-20. -/
noncomputable def YLM (l m : ℕ) (theta phi : ℝ) : ℂ :=
  (legendre_sphPlm l m (Real.cos theta) : ℂ) * Complex.exp (Complex.I * m * phi)

/-- The polar angle used by `computeMoments`.  matlab-src/computeMoments.m:26, 34-51. -/
noncomputable def thetaOf (x y z : ℝ) : ℝ :=
  if 0 < Real.sqrt (x ^ 2 + y ^ 2 + z ^ 2) then
    let rxy := Real.sqrt (x ^ 2 + y ^ 2)
    if rxy = 0 then (if z < 0 then Real.pi else 0)
    else Real.arctan (z / rxy) + Real.pi / 2
  else 0

/-- The azimuth used by `computeMoments`.  matlab-src/computeMoments.m:27, 53-70. -/
noncomputable def phiOf (x y z : ℝ) : ℝ :=
  if 0 < Real.sqrt (x ^ 2 + y ^ 2 + z ^ 2) then
    let phi := if x = 0 then (if 0 < y then Real.pi / 2 else if y < 0 then -(Real.pi / 2) else 0)
      else Real.arctan (y / x)
    if x < 0 then phi + Real.pi else phi
  else 0

/-- `computeMoments(l, m, mArray)` for `0 <= m <= l` (Octave's `0^0` is 1).  matlab-src/computeMoments.m:20-76. -/
noncomputable def computeMoments (l m : ℕ) (mArray : PtArray) : ℂ :=
  mArray.foldl (fun moment p =>
    let x := p.pos 0
    let y := p.pos 1
    let z := p.pos 2
    let r := Real.sqrt (x ^ 2 + y ^ 2 + z ^ 2)
    moment + (p.mass : ℂ) * (r : ℂ) ^ l * (starRingEnd ℂ) (YLM l m (thetaOf x y z) (phiOf x y z))) 0

/-- `computeMomentSummary(maxL, massDistribution)`: rows `[l m moment]`.  matlab-src/computeMomentSummary.m:25-34. -/
noncomputable def computeMomentSummary (maxL : ℕ) (A : PtArray) : List (ℕ × ℕ × ℂ) :=
  (List.range maxL).flatMap fun l' => (List.range (l' + 2)).map fun m => (l' + 1, m, computeMoments (l' + 1) m A)

/-- What a generator does. -/
inductive Ret where
  /-- `error(...)`, or the output was never assigned -/
  | error
  /-- the scalar `0` instead of an array -/
  | zero
  /-- points whose masses are all NaN -/
  | nan
  /-- a point array -/
  | ok (A : PtArray)

/-- `(i - (n+1)/2) * grid` for the `i`-th pass (counted from 0, so the loop variable is `i + 1`) of `for i = 1:n`. -/
noncomputable def node (i : ℕ) (n grid : ℝ) : ℝ := (((i : ℝ) + 1) - (n + 1) / 2) * grid

/-- `for i = 1:nx, for j = 1:ny, for k = 1:nz` for real `nx, ny, nz`, in loop order. -/
noncomputable def loop3 (nx ny nz : ℝ) (f : ℕ → ℕ → ℕ → V3) : List V3 :=
  (List.range ⌊nx⌋₊).flatMap fun i => (List.range ⌊ny⌋₊).flatMap fun j => (List.range ⌊nz⌋₊).map fun k => f i j k

open Classical in
/-- `genPointMassRect(mass, thickness, width, height, nxpoints, nypoints, nzpoints)`.  The counts may be any numbers
whose product is an integer: the rows of the preallocated array that no pass of the loops reaches stay zero.
matlab-src/shapes/genPointMassRect.m:16-52. -/
noncomputable def genPointMassRect (mass thickness width height nx ny nz : ℝ) : Ret :=
  let xgrid := thickness / nx
  let ygrid := width / ny
  let zgrid := height / nz
  let npoints := nx * ny * nz
  if Int.fract npoints ≠ 0 then .error
  else
    let pointMass := mass / npoints
    let pts := (loop3 nx ny nz fun i j k => ![node i nx xgrid, node j ny ygrid, node k nz zgrid]).map fun p =>
      (⟨pointMass, p⟩ : Pt)
    let array := pts ++ List.replicate (⌊npoints⌋₊ - pts.length) ⟨0, 0⟩
    if (array.length : ℝ) ≠ npoints then .zero else .ok array

open Classical in
/-- `genPointMassAnnlSheet(mass, iRadius, oRadius, thickness, nxpoints, nypoints)` for whole numbers of points.  A zero
or undefined total mass makes the rescaled masses NaN.  matlab-src/shapes/genPointMassAnnlSheet.m:16-60. -/
noncomputable def genPointMassAnnlSheet (mass iRadius oRadius thickness : ℝ) (nx ny : ℕ) : Ret :=
  let xgrid := thickness / nx
  let ygrid := oRadius * 2 / ny
  let zgrid := ygrid
  let density := mass / (Real.pi * (oRadius ^ 2 - iRadius ^ 2) * thickness)
  let pointMass := density * xgrid * ygrid * zgrid
  let pts := (loop3 nx ny ny fun i j k => ![node i nx xgrid, node j ny ygrid, node k ny zgrid]).filter fun v =>
    Real.sqrt (v 1 ^ 2 + v 2 ^ 2) ≤ oRadius ∧ iRadius ≤ Real.sqrt (v 1 ^ 2 + v 2 ^ 2)
  let total := (pts.map fun _ => pointMass).sum
  if pts = [] then .ok []
  else if total = 0 then .nan
  else .ok (pts.map fun v => ⟨pointMass / (total / mass), v⟩)

/-- `genPointMassXRing(mass, radius, npoints)`; without points the output is never assigned.
matlab-src/shapes/genPointMassXRing.m:16-25. -/
noncomputable def genPointMassXRing (mass radius : ℝ) (npoints : ℕ) : Ret :=
  if npoints = 0 then .error
  else .ok ((List.range npoints).map fun i : ℕ =>
    let angle := 2 * Real.pi / npoints * i
    ⟨mass / npoints, ![0, Real.sin angle * radius, Real.cos angle * radius]⟩)

/-- `genPointMassLine(eachMass, x, y, zstart, zspace, N)`; `zstart` is not used.
matlab-src/shapes/genPointMassLine.m:16-23. -/
def genPointMassLine (eachMass x y _zstart zspace : ℝ) (N : ℕ) : PtArray :=
  (List.range N).map fun k : ℕ => ⟨1 * eachMass, ![1 * x, 1 * y, (k : ℝ) * zspace]⟩

/-- `genPointMassArrayFrom2DArray(A, xSpacing, ySpacing, zSpacing, density)` for `zSpacing > 0`; `A` is given by its
rows, a NaN entry is `none`.  The final selection of the rows with positive mass drops the unused rows of the
preallocated array, and all rows if the mass of one point is not positive.
matlab-src/shapes/genPointMassArrayFrom2DArray.m:17-82 (the progress messages are left out). -/
noncomputable def genPointMassArrayFrom2DArray (nrows ncols : ℕ) (A : ℕ → ℕ → Option ℝ)
    (xSpacing ySpacing zSpacing density : ℝ) : PtArray :=
  let m := xSpacing * ySpacing * zSpacing * density
  let xpos := fun c : ℕ => (xSpacing - xSpacing * ncols) / 2 + xSpacing * c
  let ypos := fun r : ℕ => (ySpacing - ySpacing * nrows) / 2 + ySpacing * r
  let zstart := zSpacing / 2
  let n := fun r c => match A r c with
    | none => 0
    | some a => ⌊a / zSpacing⌋.toNat
  ((List.range ncols).flatMap fun c => (List.range nrows).flatMap fun r => (List.range (n r c)).map fun k : ℕ =>
    (⟨m, ![xpos c, ypos r, (k : ℝ) * zSpacing + zstart]⟩ : Pt)).filter fun p => 0 < p.mass

open Classical in
/-- `genPointMassRandomDisk(pointsMass, iRadius, oRadius, NPts)` (the function in the file is called
`genPointMassRandomAnnl`) as a function of the pairs drawn (`rand(1,2)*2-1.0`); `none` while the loop still needs more
draws.  matlab-src/shapes/genPointMassRandomDisk.m:16-42. -/
noncomputable def genPointMassRandomDisk (pointsMass iRadius oRadius : ℝ) (NPts : ℕ) (draws : List (ℝ × ℝ)) : Option Ret :=
  if iRadius < 0 ∨ oRadius < 0 then some .error
  else if oRadius ≤ iRadius then some .error
  else
    let kept := draws.filter fun t =>
      iRadius / oRadius ≤ Real.sqrt (t.1 ^ 2 + t.2 ^ 2) ∧ Real.sqrt (t.1 ^ 2 + t.2 ^ 2) ≤ 1
    if kept.length < NPts then none
    else some (.ok ((kept.take NPts).map fun t => ⟨pointsMass, ![0, t.1 * oRadius, t.2 * oRadius]⟩))

/-- `genPointMassRandomRectangle(pointsMass, yWidth, zWidth, NPts)` as a function of the `NPts` pairs `rand` returned.
matlab-src/shapes/genPointMassRandomRectangle.m:16-28. -/
noncomputable def genPointMassRandomRectangle (pointsMass yWidth zWidth : ℝ) (draws : List (ℝ × ℝ)) : Ret :=
  if zWidth < 0 ∨ yWidth < 0 then .error
  else .ok (draws.map fun t => ⟨pointsMass, ![0, (t.1 * 2 - 1) * yWidth / 2, (t.2 * 2 - 1) * zWidth / 2]⟩)

/-- `genPointMassSphericalRandomShell(M, R, N)` as a function of the pairs `2*rand(floor(N*4/pi), 2) - 1`.
matlab-src/shapes/genPointMassSphericalRandomShell.m:17-43. -/
noncomputable def genPointMassSphericalRandomShell (M R : ℝ) (draws : List (ℝ × ℝ)) : PtArray :=
  let x := draws.filter fun t => t.1 ^ 2 + t.2 ^ 2 < 1
  let ones := x.map fun _ => (1 : ℝ)
  x.map fun t =>
    let x2 := t.1 ^ 2 + t.2 ^ 2
    let sx2 := Real.sqrt (1 - x2)
    ⟨1 * M / ones.sum, ![2 * t.1 * sx2 * R, 2 * t.2 * sx2 * R, (1 - 2 * x2) * R]⟩

/-- `mean` of a column. -/
noncomputable def mean (l : List ℝ) : ℝ := l.sum / l.length

/-- `ols(y, X)` for two columns: the coefficients `(X'X)^-1 X'y`, and `pinv(X) y` if `X'X` is singular; for a singular
2-by-2 matrix `S = X'X` with trace `t` the pseudo-inverse gives `S X'y / t^2`, and 0 if `S = 0`.  Trusted reading of an
external function. -/
noncomputable def ols (d : List V3) : ℝ × ℝ :=
  let sxx := (d.map fun v => v 0 * v 0).sum
  let sxy := (d.map fun v => v 0 * v 1).sum
  let syy := (d.map fun v => v 1 * v 1).sum
  let sxz := (d.map fun v => v 0 * v 2).sum
  let syz := (d.map fun v => v 1 * v 2).sum
  let det := sxx * syy - sxy * sxy
  let t := sxx + syy
  if det ≠ 0 then ((syy * sxz - sxy * syz) / det, (sxx * syz - sxy * sxz) / det)
  else if t ≠ 0 then ((sxx * sxz + sxy * syz) / t ^ 2, (sxy * sxz + syy * syz) / t ^ 2)
  else (0, 0)

/-- `scanCenterAndRemoveLinear(d)` for a scan with at least one point; rows are `(x, y, z)`.
matlab-src/scanCenterAndRemoveLinear.m:16-34. -/
noncomputable def scanCenterAndRemoveLinear (d : List V3) : List V3 :=
  let mx := mean (d.map fun v => v 0)
  let my := mean (d.map fun v => v 1)
  let d1 := d.map fun v => ![v 0 - mx, v 1 - my, v 2]
  let b := ols d1
  let d2 := d1.map fun v => ![v 0, v 1, v 2 - (v 0 * b.1 + v 1 * b.2)]
  let mz := mean (d2.map fun v => v 2)
  (d2.map fun v => ![v 0, v 1, v 2 - mz]).map fun v => (1e-3 : ℝ) • v

/-- `min(scanData(:,i))`, resp. `max` with `f = max`, for a scan with at least one point. -/
noncomputable def extreme (f : ℝ → ℝ → ℝ) (i : Fin 3) (d : List V3) : ℝ :=
  match d with
  | [] => 0
  | v :: l => (l.map fun w => w i).foldl f (v i)

/-- The number of elements of the range `a:s:b` for `s > 0` (in exact arithmetic). -/
noncomputable def rangeCount (a s b : ℝ) : ℕ := if b < a then 0 else ⌊(b - a) / s⌋₊ + 1

/-- `scanToPMArray(scanData, xspacing, yspacing, zspacing, density)` for positive spacings.  `griddata` is the external
interpolation, a parameter: it takes the scan and the nodes of the grid (row, column) to heights, `none` for NaN outside the hull.
matlab-src/scanToPMArray.m:16-38 (the timing messages are left out). -/
noncomputable def scanToPMArray (griddata : List V3 → ℝ → ℝ → Option ℝ) (scanData : List V3)
    (xspacing yspacing zspacing density : ℝ) : PtArray :=
  let xmin := extreme min 0 scanData
  let xmax := extreme max 0 scanData
  let ymin := extreme min 1 scanData
  let ymax := extreme max 1 scanData
  let zi : ℕ → ℕ → Option ℝ := fun r c => griddata scanData (xmin + c * xspacing) (ymin + r * yspacing)
  genPointMassArrayFrom2DArray (rangeCount ymin yspacing ymax) (rangeCount xmin xspacing xmax) zi xspacing yspacing zspacing density

/-- `scatterPMMassesYZGrid(M)` as a function of the grid size (read from a parameter script that is not part of the repository) and
of the normal random numbers `randn(rows(M), 2)`; columns 2 and 3 of a point array are x and y.
matlab-src/scatterPMMassesYZGrid.m:18-26. -/
def scatterPMMassesYZGrid (gridSize : ℝ) (M : PtArray) (randn : ℕ → ℝ × ℝ) : PtArray :=
  M.mapIdx fun i p => ⟨p.mass, ![p.pos 0 + gridSize * (randn i).1, p.pos 1 + gridSize * (randn i).2, p.pos 2]⟩

/-- `genPointMassRoundXSheet(mass, nrings, ngon)`: the body is empty, so the output is never assigned.
matlab-src/shapes/genPointMassRoundXSheet.m:16-20. -/
def genPointMassRoundXSheet (_mass _nrings _ngon : ℝ) : Ret := .error

/-- The array `Pendulum` of the demonstration script.  matlab-src/SampleDemo.m:19-20. -/
noncomputable def demoPendulum : PtArray := [⟨0.1, ![5e-2, 0, 5e-2]⟩, ⟨0.1, ![-5e-2, 0, -5e-2]⟩]

/-- One pass of the loop of the demonstration script: `[angle Force Torque]`.  matlab-src/SampleDemo.m:33-50. -/
noncomputable def demoRow (angle : ℝ) : Option (ℝ × V3 × V3) :=
  (rotatePMArray demoPendulum angle ![0, 0, 1]).bind fun A =>
    (pointMatrixGravity demoPendulum (translatePMArray A ![-30e-2, 0, 0])).map fun ft => (angle, ft.1, ft.2)

/-- The array `results` of the demonstration script, one entry per pass `angle = 0:0.1:(2*pi)`.
matlab-src/SampleDemo.m:23-53 (the plot is not modelled). -/
noncomputable def sampleDemo : List (Option (ℝ × V3 × V3)) :=
  (List.range (rangeCount 0 0.1 (2 * Real.pi))).map fun k : ℕ => demoRow (0.1 * k)

end Newt.Oct
