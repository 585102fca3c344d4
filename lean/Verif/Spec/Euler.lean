import Verif.Model.Glib

/-!
# Specification: orienting a body

A body is oriented by turning it about axes through the origin, with `rotate_point_array`.
-/

namespace Newt.Spec

/-- Turn an array by `gamma` about z, then by `beta` about y, then by `alpha` about z: the axes stay where they are. -/
noncomputable def turnFixed (alpha beta gamma : ℝ) (A : PtArray) : Option PtArray :=
  (rotate_point_array A gamma ![0, 0, 1]).bind fun A1 =>
    (rotate_point_array A1 beta ![0, 1, 0]).bind fun A2 => rotate_point_array A2 alpha ![0, 0, 1]

/-- Turn an array, and with it two marks fixed to the body at `(0, 1, 0)` and `(0, 0, 1)`: by `alpha` about the second mark, then by
`beta` about the place of the first mark, then by `gamma` about the place of the second mark.  The result is the array. -/
noncomputable def turnBody (alpha beta gamma : ℝ) (A : PtArray) : Option PtArray :=
  (rotate_point_array A alpha ![0, 0, 1]).bind fun A1 =>
  (rotate_point_array [⟨1, ![0, 1, 0]⟩, ⟨1, ![0, 0, 1]⟩] alpha ![0, 0, 1]).bind fun M1 =>
  (M1[0]?).bind fun y1 =>
  (rotate_point_array A1 beta y1.pos).bind fun A2 =>
  (rotate_point_array M1 beta y1.pos).bind fun M2 =>
  (M2[1]?).bind fun z2 => rotate_point_array A2 gamma z2.pos

/-- Turn an array by each of a list of angles about each of a list of axes. -/
noncomputable def turnAll : List (ℝ × V3) → PtArray → Option PtArray
  | [], A => some A
  | s :: ss, A => (rotate_point_array A s.1 s.2).bind (turnAll ss)

end Newt.Spec
