import Verif.Model.GenCAD
import Verif.Model.QlmNum
import Verif.Model.BigQlm

/-!
# Model of the subclasses of `Shape` in `newt/shapes.py`, with their meshes

The constructors as the user calls them, `inner` included.  A constructor first sets the mass and
the mesh (`pmass = mass > 0`), then the moments.  The parameters are assumed to be such that CadQuery
builds the mesh.  The mesh of `OuterCone` is a parameter (see `outerCone`).
-/

namespace Newt.Cls

open Newt.Shape

/-- The outcome of `Shape.ofRes`, with the exception. -/
noncomputable def made : Option Shape → Except ShapeErr Shape
  | none => .error .valueError
  | some s => .ok s

/-- `Annulus(lmax, inner, mass, H, Ri, Ro, phic, phih)`.  A division by zero inside `bigQlm.annulus` is
`zeroDivision`.  newt/shapes.py:130-143. -/
noncomputable def annulus (lmax : ℕ) (inner : Bool) (mass H Ri Ro phic phih : ℝ) : Except ShapeErr Shape :=
  let mesh := Cad.annulus (decide (mass > 0)) H Ri Ro phic phih
  if inner then made (Shape.annulus lmax mass H Ri Ro phic phih mesh)
  else if 2 * phih * (Ro ^ 2 - Ri ^ 2) * H = 0 then .error .zeroDivision
  else
    let dens := mass / (2 * phih * (Ro ^ 2 - Ri ^ 2) * H)
    match BigQlm.annulus lmax dens (H / 2) Ri Ro phic phih with
    | .valueError => .error .valueError
    | .zeroDivision => .error .zeroDivision
    | .ok Q1 =>
      match BigQlm.annulus lmax dens (-H / 2) Ri Ro phic phih with
      | .valueError => .error .valueError
      | .zeroDivision => .error .zeroDivision
      | .ok Q2 => .ok ⟨false, lmax, some (sumMom [Q1, Q2]), some 0, mass, some mesh⟩

/-- `RectPrism(lmax, inner, mass, H, a, b, phic)`.  newt/shapes.py:146-157. -/
noncomputable def rectPrism (lmax : ℕ) (inner : Bool) (mass H a b phic : ℝ) : Except ShapeErr Shape :=
  let mesh := Cad.rectPrism (decide (mass > 0)) H a b phic
  if inner then made (Shape.rectPrism lmax mass H a b phic mesh) else .ok (outerStub lmax mass mesh)

/-- `TriPrism(lmax, inner, mass, H, d, y1, y2)`.  newt/shapes.py:160-171. -/
noncomputable def triPrism (lmax : ℕ) (inner : Bool) (mass H d y1 y2 : ℝ) : Except ShapeErr Shape :=
  let mesh := Cad.triPrism (decide (mass > 0)) H d y1 y2
  if inner then made (Shape.triPrism lmax mass H d y1 y2 mesh) else .ok (outerStub lmax mass mesh)

/-- `Cone(lmax, inner, mass, P, R, phic, phih)`.  newt/shapes.py:174-185. -/
noncomputable def cone (lmax : ℕ) (inner : Bool) (mass P R phic phih : ℝ) : Except ShapeErr Shape :=
  let mesh := Cad.cone (decide (mass > 0)) P 0 R phic phih
  if inner then made (Shape.cone lmax mass P R phic phih mesh) else .ok (outerStub lmax mass mesh)

/-- `Sphere(lmax, inner, mass, R, center)`.  In the outer branch a radius 0 divides by zero and a centre
at the origin is refused by `bigQlm.sphere`; otherwise the moments are computed and thrown away.
newt/shapes.py:188-201. -/
noncomputable def sphere (lmax : ℕ) (inner : Bool) (mass R : ℝ) (center : V3) : Except ShapeErr Shape :=
  let mesh := Cad.sphere (decide (mass > 0)) R
  if inner then .ok (Shape.sphere lmax mass R center mesh)
  else if 4 * Real.pi * R ^ 3 / 3 = 0 then .error .zeroDivision
  else
    match BigQlm.sphere lmax (mass / (4 * Real.pi * R ^ 3 / 3)) R (center 0) (center 1) (center 2) with
    | .valueError => .error .valueError
    | .zeroDivision => .error .zeroDivision
    | .ok _ => .ok (outerStub lmax mass mesh)

/-- `NGon(lmax, inner, mass, H, a, phic, N)`.  newt/shapes.py:204-215. -/
noncomputable def ngon (lmax : ℕ) (inner : Bool) (mass H a phic : ℝ) (N : ℕ) : Except ShapeErr Shape :=
  let mesh := Cad.ngonPrism (decide (mass > 0)) H a phic N
  if inner then made (Shape.ngon lmax mass H a phic N mesh) else .ok (outerStub lmax mass mesh)

/-- `Tetrahedron(lmax, inner, mass, x, y1, y2, z)`.  newt/shapes.py:218-229. -/
noncomputable def tetrahedron (lmax : ℕ) (inner : Bool) (mass x y1 y2 z : ℝ) : Except ShapeErr Shape :=
  let mesh := Cad.tetrahedron2 (decide (mass > 0)) x y1 y2 z
  if inner then made (Shape.tetrahedron lmax mass x y1 y2 z mesh) else .ok (outerStub lmax mass mesh)

/-- `Pyramid(lmax, inner, mass, x, y, z)`.  newt/shapes.py:232-243. -/
noncomputable def pyramid (lmax : ℕ) (inner : Bool) (mass x y z : ℝ) : Except ShapeErr Shape :=
  let mesh := Cad.pyramid (decide (mass > 0)) x y z
  if inner then made (Shape.pyramid lmax mass x y z mesh) else .ok (outerStub lmax mass mesh)

/-- `self.qlm *= mass/np.real(self.qlm[0, lmax])*np.sqrt(4*np.pi)`; dividing by zero makes the array
non-finite (`none`).  newt/shapes.py:272, 288. -/
noncomputable def scaled {lmax : ℕ} (mass : ℝ) (q : Mom lmax) : Option (Mom lmax) :=
  if (q.get 0 0).re = 0 then none
  else some (Mom.ofFn lmax fun l m => q.get l m * ((mass / (q.get 0 0).re * Real.sqrt (4 * Real.pi) : ℝ) : ℂ))

/-- The inner branches of `Cylhole` and `Platehole` after the integration.  newt/shapes.py:269-272, 285-288. -/
noncomputable def ofNum (lmax : ℕ) (mass : ℝ) (mesh : Mesh) : Qlm.Res lmax → Except ShapeErr Shape
  | .valueError => .error .valueError
  | .nan => .ok ⟨true, lmax, none, some 0, mass, some mesh⟩
  | .ok q => .ok ⟨true, lmax, scaled mass q, some 0, mass, some mesh⟩

/-- `Cylhole(lmax, inner, mass, r, R)`.  newt/shapes.py:261-274. -/
noncomputable def cylhole (lmax : ℕ) (inner : Bool) (mass r R : ℝ) : Except ShapeErr Shape :=
  let mesh := Cad.cylhole (decide (mass > 0)) r R
  if inner then ofNum lmax mass mesh (QlmNum.steinmetz lmax 1 r R) else .ok (outerStub lmax mass mesh)

/-- `Platehole(N, lmax, inner, mass, t, r, theta)`; `N` is not used.  newt/shapes.py:277-290. -/
noncomputable def platehole (_N : ℕ) (lmax : ℕ) (inner : Bool) (mass t r theta : ℝ) : Except ShapeErr Shape :=
  let mesh := Cad.platehole (decide (mass > 0)) t r theta
  if inner then ofNum lmax mass mesh (QlmNum.platehole lmax 1 t r theta) else .ok (outerStub lmax mass mesh)

/-- `OuterCone(lmax, inner, mass, H, IR, OR, phih)`.  The profile given to CadQuery runs back over its first
edge; `solid` is whatever region CadQuery makes of it.  The mesh gets `pmass = mass` (not `mass > 0`), which
`sum_mesh` reads as true unless the mass is zero.  With `inner` only a message is printed; otherwise the
moments are computed and thrown away.  newt/shapes.py:246-258; newt/genCAD.py:503-532. -/
noncomputable def outerCone (solid : Set V3) (lmax : ℕ) (inner : Bool) (mass H IR OR phih : ℝ) : Except ShapeErr Shape :=
  if IR ≤ 0 then .error .valueError
  else
    let mesh : Mesh := ⟨solid, decide (mass ≠ 0)⟩
    if inner then .ok ⟨true, lmax, some (Mom.ofFn lmax fun _ _ => 0), some 0, mass, some mesh⟩
    else if 2 * phih * H * (OR ^ 2 - IR ^ 2) / 3 = 0 then .error .zeroDivision
    else
      match BigQlmNum.outerCone lmax (mass / (2 * phih * H * (OR ^ 2 - IR ^ 2) / 3)) H IR OR phih with
      | .valueError => .error .valueError
      | _ => .ok (outerStub lmax mass mesh)

end Newt.Cls
