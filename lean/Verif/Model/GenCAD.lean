import Verif.Model.Shapes

/-!
# Model of the mesh constructors of `newt/genCAD.py`

A CadQuery object is idealised as the closed region of space it fills (tessellation and the STL export
are not modelled), and the CadQuery operations used by `genCAD.py` as set operations:

* `Workplane("XZ")`: local coordinates `(x, y)` are the points `(x, 0, y)` of space, so a revolution
  about the local y axis is a revolution about the z axis, starting at the azimuth 0 and turning
  counter-clockwise seen from above;
* `lineTo(..)....close()`: a polyline starting at the local origin; the profiles used are convex, and the
  region is the set of convex combinations of the vertices;
* `extrude(d, both=True)`: from `-d` to `d` along the normal;
* `box(a, b, c)`, `cylinder(height, radius)`, `sphere(radius)`: centred on the origin;
* `polygon(n, diameter)`: regular, first vertex on the local x axis, inscribed in the circle of the
  given *diameter*;
* `loft()` of two rectangles, `intersect`, `rotate` (degrees; the factors `180/pi` cancel).

The lengths are assumed to be such that CadQuery builds a solid.  `outercone` is not modelled: its
profile runs back over its first edge.  `save_stl` is not modelled.
-/

namespace Newt.Cad

open Newt.Shape

/-- The convex combinations of finitely many points: the filled convex polygon or polyhedron with
these vertices. -/
def hull {E : Type*} [AddCommMonoid E] [Module ℝ E] {n : ℕ} (v : Fin n → E) : Set E :=
  {p | ∃ w : Fin n → ℝ, (∀ i, 0 ≤ w i) ∧ ∑ i, w i = 1 ∧ ∑ i, w i • v i = p}

/-- `.extrude(d, both=True)` of a region of the XY plane. -/
def extrudeBoth (d : ℝ) (B : Set (ℝ × ℝ)) : Set V3 := {v | -d ≤ v 2 ∧ v 2 ≤ d ∧ (v 0, v 1) ∈ B}

/-- `.revolve(angle, axis)` of a region of the XZ plane about the z axis, starting at azimuth 0. -/
def revolve (angle : ℝ) (D : Set (ℝ × ℝ)) : Set V3 :=
  {v | ∃ p ∈ D, ∃ phi, 0 ≤ phi ∧ phi ≤ angle ∧ v = ![p.1 * Real.cos phi, p.1 * Real.sin phi, p.2]}

/-- `.box(a, b, c)`. -/
def box (a b c : ℝ) : Set V3 := {v | |v 0| ≤ a / 2 ∧ |v 1| ≤ b / 2 ∧ |v 2| ≤ c / 2}

/-- `.rect(a, b)` on a workplane whose origin is at the local point `(x0, 0)`; the sign of a side does
not matter. -/
def rect (x0 a b : ℝ) : Set (ℝ × ℝ) := {p | |p.1 - x0| ≤ |a| / 2 ∧ |p.2| ≤ |b| / 2}

/-- `.cylinder(height, radius)`. -/
def cyl (height radius : ℝ) : Set V3 := {v | v 0 ^ 2 + v 1 ^ 2 ≤ radius ^ 2 ∧ |v 2| ≤ height / 2}

/-- `.polygon(n, diameter)`. -/
noncomputable def polygon (n : ℕ) (diameter : ℝ) : Set (ℝ × ℝ) :=
  hull fun j : Fin n => (diameter / 2 * Real.cos (2 * Real.pi * j / n), diameter / 2 * Real.sin (2 * Real.pi * j / n))

/-- `mesh.rotate((0,0,0), (1,0,0), 90)`. -/
def quarterX (S : Set V3) : Set V3 := {w | ∃ u ∈ S, w = ![u 0, -u 2, u 1]}

/-- `sphere(pmass, R)`.  newt/genCAD.py:8-25. -/
noncomputable def sphere (pmass : Bool) (R : ℝ) : Mesh := ⟨{v | Real.sqrt (v 0 ^ 2 + v 1 ^ 2 + v 2 ^ 2) ≤ R}, pmass⟩

/-- `cylinder(pmass, H, R)`.  newt/genCAD.py:28-47. -/
def cylinder (pmass : Bool) (H R : ℝ) : Mesh := ⟨cyl H R, pmass⟩

/-- `annulus(pmass, H, Ri, Ro, phic, phih)`.  newt/genCAD.py:50-80. -/
noncomputable def annulus (pmass : Bool) (H Ri Ro phic phih : ℝ) : Mesh :=
  ⟨meshTurn (phic - phih) ![0, 0, 1] (revolve (2 * phih) (rect ((Ro + Ri) / 2) (Ri - Ro) H)), pmass⟩

/-- `cone(pmass, H, r1, r2, phic, phih)`.  newt/genCAD.py:83-118. -/
noncomputable def cone (pmass : Bool) (H r1 r2 phic phih : ℝ) : Mesh :=
  let D := if r1 = 0 then hull ![((0 : ℝ), (0 : ℝ)), (r2, 0), (0, H)]
    else hull ![((0 : ℝ), (0 : ℝ)), (r2, 0), (r1, H), (0, H)]
  rotateMesh ⟨revolve (2 * phih) D, pmass⟩ (phic - phih) 0 0

/-- `tri_iso_prism(pmass, H, a, d, phic)`.  newt/genCAD.py:121-156. -/
noncomputable def triIsoPrism (pmass : Bool) (H a d phic : ℝ) : Mesh :=
  rotateMesh ⟨extrudeBoth (H / 2) (hull ![((0 : ℝ), (0 : ℝ)), (d, -a / 2), (d, a / 2)]), pmass⟩ phic 0 0

/-- `tri_iso_prism2(pmass, H, R, phic, phih)`.  newt/genCAD.py:159-191. -/
noncomputable def triIsoPrism2 (pmass : Bool) (H R phic phih : ℝ) : Mesh :=
  let Rx := R * Real.cos phih
  let Ry := R * Real.sin phih
  rotateMesh ⟨extrudeBoth (H / 2) (hull ![((0 : ℝ), (0 : ℝ)), (Rx, Ry), (Rx, -Ry)]), pmass⟩ phic 0 0

/-- `tri_prism(pmass, H, d, y1, y2)`.  newt/genCAD.py:194-222. -/
noncomputable def triPrism (pmass : Bool) (H d y1 y2 : ℝ) : Mesh :=
  ⟨extrudeBoth (H / 2) (hull ![((0 : ℝ), (0 : ℝ)), (d, y1), (d, y2)]), pmass⟩

/-- `rect_prism(pmass, H, a, b, phic)`.  newt/genCAD.py:225-250. -/
noncomputable def rectPrism (pmass : Bool) (H a b phic : ℝ) : Mesh := rotateMesh ⟨box a b H, pmass⟩ phic 0 0

/-- `trapezoid(pmass, t, w1, w2, h)`: the loft between the rectangle `w1 x t` at `z = 0` and the rectangle
`w2 x t` at `z = h`.  newt/genCAD.py:253-283. -/
def trapezoid (pmass : Bool) (t w1 w2 h : ℝ) : Mesh :=
  ⟨{v | ∃ s, 0 ≤ s ∧ s ≤ 1 ∧ |v 0| ≤ ((1 - s) * w1 + s * w2) / 2 ∧ |v 1| ≤ t / 2 ∧ v 2 = s * h}, pmass⟩

/-- `ngon_prism(pmass, H, a, phic, N)`.  newt/genCAD.py:286-318. -/
noncomputable def ngonPrism (pmass : Bool) (H a _phic : ℝ) (N : ℕ) : Mesh :=
  let ang := 2 * Real.pi / N
  let R := a / Real.sqrt (2 * (1 - Real.cos ang))
  rotateMesh ⟨extrudeBoth (H / 2) (polygon N R), pmass⟩ (ang / 2) 0 0

/-- `tetrahedron(pmass, x, y, z)`.  newt/genCAD.py:321-359. -/
noncomputable def tetrahedron (pmass : Bool) (x y z : ℝ) : Mesh :=
  ⟨hull ![(![0, 0, 0] : V3), ![x, 0, 0], ![0, y, 0], ![0, 0, z]], pmass⟩

/-- `tetrahedron2(pmass, x, y1, y2, z)`.  newt/genCAD.py:362-401. -/
noncomputable def tetrahedron2 (pmass : Bool) (x y1 y2 z : ℝ) : Mesh :=
  ⟨hull ![(![0, 0, 0] : V3), ![x, y1, 0], ![x, y2, 0], ![0, 0, z]], pmass⟩

/-- `pyramid(pmass, x, y, z)`.  newt/genCAD.py:404-442. -/
noncomputable def pyramid (pmass : Bool) (x y z : ℝ) : Mesh :=
  ⟨hull ![(![x / 2, y / 2, 0] : V3), ![x / 2, -y / 2, 0], ![-x / 2, -y / 2, 0], ![-x / 2, y / 2, 0], ![0, 0, z]], pmass⟩

/-- `cylhole(pmass, r, R)`.  newt/genCAD.py:445-465. -/
def cylhole (pmass : Bool) (r R : ℝ) : Mesh :=
  let mr := cylinder false r (2 * R)
  let mR := cylinder false R (2 * r)
  ⟨mr.solid ∩ quarterX mR.solid, pmass⟩

/-- `platehole(pmass, t, r, theta)`.  newt/genCAD.py:468-500. -/
noncomputable def platehole (pmass : Bool) (t r theta : ℝ) : Mesh :=
  let rect := rectPrism pmass t (2 * r + 2 * t * Real.sin theta) (2 * r + 2 * t * Real.sin theta) 0
  let cyl := rotateMesh (cylinder false (2 * t) r) 0 theta 0
  ⟨rect.solid ∩ cyl.solid, pmass⟩

end Newt.Cad
