import Verif.Model.MultipoleLib
import Verif.Model.Qlm

/-!
# Model of `newt/shapes.py` (class `Shape` and its subclasses)

A `Shape` is a mutable object; a method is modelled as a function from the state of the receiver to
its state afterwards together with the exception it raises, if any.  Floats are exact reals.
Arrays holding NaN or infinities are `none`.  The CadQuery mesh is idealised as a region of space
with the flag `pmass`; `None` (a plain `Shape`) is `none`.
-/

namespace Newt

/-- Exceptions of the methods of `Shape`. -/
inductive ShapeErr where
  | valueError
  | typeError
  | attributeError
  | zeroDivision
  deriving DecidableEq

/-- A CadQuery object with the attribute `pmass` set by `newt/genCAD.py`. -/
structure Mesh where
  solid : Set V3
  pmass : Bool

/-- The attributes of a `Shape`.  newt/shapes.py:26-32. -/
structure Shape where
  inner : Bool
  lmax : ℕ
  qlm : Option (Mom lmax)
  com : Option V3
  mass : ℝ
  mesh : Option Mesh

namespace Shape

/-- `Shape(lmax, inner)`.  newt/shapes.py:26-32. -/
noncomputable def empty (lmax : ℕ) (inner : Bool) : Shape :=
  ⟨inner, lmax, some (Mom.ofFn lmax fun _ _ => 0), some 0, 0, none⟩

/-- `rotate_point_array` on a single row `[mass, x, y, z]` (one-dimensional branch); position only.
newt/glib.py:202-213. -/
noncomputable def rotRow (theta : ℝ) (v : V3) (c : V3) : Option V3 :=
  (rotMatrix theta v).map fun R => R.mulVec c

/-- The mesh turned by `theta` radians about the axis `v`
(`mesh.rotate((0,0,0), v, theta*180/np.pi)`); idealised as the exact rotation.
newt/genCAD.py:573-575. -/
noncomputable def meshTurn (theta : ℝ) (v : V3) (S : Set V3) : Set V3 :=
  {w | ∃ u ∈ S, rotRow theta v u = some w}

/-- `rotate_mesh(mesh, alpha, beta, gamma)`: about z by `alpha`, then about y by `beta`, then about
z by `gamma`.  newt/genCAD.py:553-577. -/
noncomputable def rotateMesh (m : Mesh) (alpha beta gamma : ℝ) : Mesh :=
  ⟨meshTurn gamma ![0, 0, 1] (meshTurn beta ![0, 1, 0] (meshTurn alpha ![0, 0, 1] m.solid)), m.pmass⟩

/-- `translate_mesh(mesh, rPrime)`.  newt/genCAD.py:535-550. -/
def translateMesh (m : Mesh) (d : V3) : Mesh := ⟨{w | ∃ u ∈ m.solid, u + d = w}, m.pmass⟩

/-- `sum_mesh([m0, m1, ...])`.  newt/genCAD.py:580-590. -/
def sumMesh (m0 : Mesh) (ms : List Mesh) : Mesh :=
  ⟨ms.foldl (fun acc m => if m.pmass then acc ∪ m.solid else acc \ m.solid) m0.solid, true⟩

/-- `Shape.rotate(alpha, beta, gamma)`: the moments first, then the mesh (which fails on `None`),
then the centre of mass.  newt/shapes.py:58-67. -/
noncomputable def rotate (s : Shape) (alpha beta gamma : ℝ) : Shape × Option ShapeErr :=
  let qlm := s.qlm.bind fun q => rotate_qlm q alpha beta gamma
  match s.mesh with
  | none => ({ s with qlm := qlm }, some .attributeError)
  | some m =>
    let com := ((s.com.bind (rotRow gamma ![0, 0, 1])).bind (rotRow beta ![0, 1, 0])).bind
      (rotRow alpha ![0, 0, 1])
    ({ s with qlm := qlm, mesh := some (rotateMesh m alpha beta gamma), com := com }, none)

/-- `Shape.translate(tvec, to_inner)`: the centre of mass and the mesh are changed before the
direction is checked.  newt/shapes.py:69-80. -/
noncomputable def translate (s : Shape) (d : V3) (toInner : Bool) : Shape × Option ShapeErr :=
  let com := s.com.map fun c => c + d
  match s.mesh with
  | none => ({ s with com := com }, some .attributeError)
  | some m =>
    let s := { s with com := com, mesh := some (translateMesh m d) }
    if s.inner ∧ toInner then ({ s with qlm := s.qlm.map fun q => translate_qlm q d }, none)
    else if s.inner ∧ ¬ toInner then
      ({ s with inner := false, qlm := s.qlm.bind fun q => translate_q2Q q d }, none)
    else if ¬ s.inner ∧ ¬ toInner then ({ s with qlm := s.qlm.map fun q => translate_Qlmb q d }, none)
    else (s, some .valueError)

/-- `max([shape.lmax for shape in shape_list])`.  newt/shapes.py:109. -/
def maxL (s : Shape) (ts : List Shape) : ℕ := (ts.map lmax).foldl max s.lmax

/-- The sum of moment arrays of one size, in list order. -/
noncomputable def sumMom {L : ℕ} (qs : List (Mom L)) : Mom L :=
  Mom.ofFn L fun l m => (qs.map fun q => q.get l m).sum

/-- `Shape.add(shapes)` for a list of shapes (or one shape, taken as a list of one).  `embed_qlm`
to the same degree returns the array itself (C32), so the two branches of lines 116-119 are one.
A zero total mass divides an ndarray by zero: `com` becomes non-finite.  newt/shapes.py:101-126. -/
noncomputable def add (s : Shape) (ts : List Shape) : Shape × Option ShapeErr :=
  let all := s :: ts
  if (∀ t ∈ all, t.inner = true) ∨ (∀ t ∈ all, t.inner = false) then
    let L := maxL s ts
    let mtot := (all.map Shape.mass).sum
    let com := (all.mapM fun t : Shape => t.com.map fun c => t.mass • c).bind fun cs =>
      if mtot = 0 then none else some (fun i => (cs.sum : V3) i / mtot)
    let qlm := (all.mapM fun t : Shape => t.qlm.map fun q => embed_qlm q L).map sumMom
    let s' : Shape := ⟨s.inner, L, qlm, com, mtot, s.mesh⟩
    match all.mapM Shape.mesh with
    | some (m0 :: ms) => ({ s' with mesh := some (sumMesh m0 ms) }, none)
    | _ => (s', some .attributeError)
  else (s, some .typeError)

/-! ## Constructors of the subclasses, inner moments

`Shape.__init__` puts the centre of mass at the origin and no subclass except `Sphere` changes it.
The mesh is made by the functions of `newt/genCAD.py`, which are not modelled: it is a parameter. -/

/-- The common part of the constructors whose moments come from `newt/qlm.py`, with `inner=True`;
`none` = `ValueError`. -/
noncomputable def ofRes (lmax : ℕ) (mass : ℝ) (mesh : Mesh) : Qlm.Res lmax → Option Shape
  | .valueError => none
  | .nan => some ⟨true, lmax, none, some 0, mass, some mesh⟩
  | .ok q => some ⟨true, lmax, some q, some 0, mass, some mesh⟩

/-- `Annulus(lmax, True, mass, H, Ri, Ro, phic, phih)`.  newt/shapes.py:134-139. -/
noncomputable def annulus (lmax : ℕ) (mass H Ri Ro phic phih : ℝ) (mesh : Mesh) : Option Shape :=
  ofRes lmax mass mesh (Qlm.annulus lmax mass H Ri Ro phic phih)

/-- `RectPrism(lmax, True, mass, H, a, b, phic)`.  newt/shapes.py:150-155. -/
noncomputable def rectPrism (lmax : ℕ) (mass H a b phic : ℝ) (mesh : Mesh) : Option Shape :=
  ofRes lmax mass mesh (Qlm.rectPrism lmax mass H a b phic)

/-- `TriPrism(lmax, True, mass, H, d, y1, y2)`.  newt/shapes.py:164-169. -/
noncomputable def triPrism (lmax : ℕ) (mass H d y1 y2 : ℝ) (mesh : Mesh) : Option Shape :=
  ofRes lmax mass mesh (Qlm.triPrism lmax mass H d y1 y2)

/-- `Cone(lmax, True, mass, P, R, phic, phih)`.  newt/shapes.py:178-183. -/
noncomputable def cone (lmax : ℕ) (mass P R phic phih : ℝ) (mesh : Mesh) : Option Shape :=
  ofRes lmax mass mesh (Qlm.cone lmax mass P R phic phih)

/-- `NGon(lmax, True, mass, H, a, phic, N)`.  newt/shapes.py:208-213. -/
noncomputable def ngon (lmax : ℕ) (mass H a phic : ℝ) (N : ℕ) (mesh : Mesh) : Option Shape :=
  ofRes lmax mass mesh (Qlm.ngonPrism lmax mass H a phic N)

/-- `Tetrahedron(lmax, True, mass, x, y1, y2, z)`.  newt/shapes.py:222-227. -/
noncomputable def tetrahedron (lmax : ℕ) (mass x y1 y2 z : ℝ) (mesh : Mesh) : Option Shape :=
  ofRes lmax mass mesh (Qlm.tetrahedron2 lmax mass x y1 y2 z)

/-- `Pyramid(lmax, True, mass, x, y, z)`.  newt/shapes.py:236-241. -/
noncomputable def pyramid (lmax : ℕ) (mass x y z : ℝ) (mesh : Mesh) : Option Shape :=
  ofRes lmax mass mesh (Qlm.pyramid lmax mass x y z)

/-- `Sphere(lmax, True, mass, R, center)`.  newt/shapes.py:192-198. -/
noncomputable def sphere (lmax : ℕ) (mass R : ℝ) (center : V3) (mesh : Mesh) : Shape :=
  (translate ⟨true, lmax, some (Qlm.sphere lmax mass R), some 0, mass, some mesh⟩ center true).1

/-- The outer branches of `RectPrism`, `TriPrism`, `Cone`, `NGon`, `Tetrahedron`, `Pyramid`,
`Cylhole`, `Platehole` (a message is printed) and of `Sphere` and `OuterCone` (the moments are
computed and thrown away): the moments stay zero, the mass is set.
newt/shapes.py:157, 171, 185, 201, 215, 229, 243, 258, 274, 290. -/
noncomputable def outerStub (lmax : ℕ) (mass : ℝ) (mesh : Mesh) : Shape :=
  ⟨false, lmax, some (Mom.ofFn lmax fun _ _ => 0), some 0, mass, some mesh⟩

end Shape

/-! ## A program: many shapes, any sequence of method calls -/

/-- One statement of a program working on a list of shapes. -/
inductive ShapeOp where
  | rotate (i : ℕ) (alpha beta gamma : ℝ)
  | translate (i : ℕ) (d : V3) (toInner : Bool)
  | add (i : ℕ) (js : List ℕ)

/-- Run one statement; `none` when a method raises or an index does not name a shape. -/
noncomputable def ShapeOp.run (op : ShapeOp) (h : List Shape) : Option (List Shape) :=
  match op with
  | .rotate i a b g => (h[i]?).bind fun s =>
      match s.rotate a b g with
      | (s', none) => some (h.set i s')
      | _ => none
  | .translate i d t => (h[i]?).bind fun s =>
      match s.translate d t with
      | (s', none) => some (h.set i s')
      | _ => none
  | .add i js => (h[i]?).bind fun s => (js.mapM fun j => h[j]?).bind fun ts =>
      match s.add ts with
      | (s', none) => some (h.set i s')
      | _ => none

/-- Run a program. -/
noncomputable def runShapes : List ShapeOp → List Shape → Option (List Shape)
  | [], h => some h
  | op :: ops, h => (op.run h).bind (runShapes ops)

end Newt
