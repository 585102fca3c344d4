import Verif.Model.Shapes

/-!
# `Shape` objects and the arrays they hold (newt/shapes.py)

`Model/Shapes` treats the attributes of a `Shape` as values.  In Python `com` and `qlm` are references to numpy arrays, which methods may change
in place and which the user can hold, pass to a method, or write to.  Here a program runs on a memory of arrays.  What a method computes from the
contents of the arrays is taken from `Model/Shapes`; what is added is which arrays are read, changed in place, kept, or newly allocated, and when.

Simplifications: a statement that raises ends the program (`none`), and so does a call with a displacement that is not finite; the user does not write
into moment arrays.
-/

namespace Newt.Heap

/-- A `Shape` object: `qlm` and `com` are addresses. -/
structure Obj where
  inner : Bool
  qlm : ℕ
  com : ℕ
  mass : ℝ
  mesh : Option Mesh

/-- The memory: arrays of three numbers (`none` = not finite), moment arrays, objects. -/
structure World where
  vecs : List (Option V3)
  moms : List (Σ L : ℕ, Option (Mom L))
  objs : List Obj

/-- The attributes of an object, read through its references. -/
def World.value (w : World) (o : Obj) : Option Shape :=
  (w.moms[o.qlm]?).bind fun q => (w.vecs[o.com]?).map fun c => ⟨o.inner, q.1, q.2, c, o.mass, o.mesh⟩

/-- Store the attributes of `s` in object `i`, moments and centre of mass in new arrays. -/
def World.storeNew (w : World) (i : ℕ) (s : Shape) : World :=
  { vecs := w.vecs ++ [s.com], moms := w.moms ++ [⟨s.lmax, s.qlm⟩],
    objs := w.objs.set i ⟨s.inner, w.moms.length, w.vecs.length, s.mass, s.mesh⟩ }

/-- Statements. -/
inductive Op where
  /-- a constructor of `Shape` or a subclass, with the attributes it leaves (new arrays: newt/shapes.py:26-32 and the subclasses) -/
  | make (s : Shape)
  /-- the user makes an array of three numbers -/
  | newVec (v : V3)
  /-- the user writes into an array of three numbers -/
  | setVec (a : ℕ) (v : V3)
  | rotate (i : ℕ) (alpha beta gamma : ℝ)
  /-- `shape_i.translate(tvec, to_inner)`, with the array at address `a` as `tvec` -/
  | translate (i a : ℕ) (toInner : Bool)
  | add (i : ℕ) (js : List ℕ)

/-- `shape.rotate`: `rotate_qlm` copies, `com` is a part of a new array.  newt/shapes.py:58-67, newt/rotations.py:299. -/
noncomputable def World.rotate (w : World) (i : ℕ) (alpha beta gamma : ℝ) : Option World :=
  (w.objs[i]?).bind fun o => (w.value o).bind fun s =>
    match s.rotate alpha beta gamma with
    | (s', none) => some (w.storeNew i s')
    | _ => none

/-- `shape.translate`: `self.com += tvec` changes the array `com` in place, and `tvec` is read again for the mesh and the moments; `translate_qlm` and
`translate_Qlmb` return their argument itself if the displacement is zero and a new array otherwise, `translate_q2Q` always returns a new array.
newt/shapes.py:69-80, newt/translations.py:36-37, 97-98. -/
noncomputable def World.translate (w : World) (i a : ℕ) (toInner : Bool) : Option World :=
  (w.objs[i]?).bind fun o => (w.value o).bind fun s => (w.vecs[a]?).bind fun t => t.bind fun t =>
    let vecs := w.vecs.set o.com (s.com.map fun c => c + t)
    (vecs[a]?).bind fun d => d.bind fun d =>
      match s.translate d toInner with
      | (s', none) =>
        if rPOf d = 0 ∧ o.inner = toInner then
          some { w with vecs := vecs, objs := w.objs.set i { o with mesh := s'.mesh } }
        else
          some { vecs := vecs, moms := w.moms ++ [⟨s'.lmax, s'.qlm⟩],
                 objs := w.objs.set i { o with inner := s'.inner, qlm := w.moms.length, mesh := s'.mesh } }
      | _ => none

/-- `shape.add`: the sums `com += ...`, `qlmtot += ...` start from the number 0, so they are new arrays.  newt/shapes.py:101-126. -/
noncomputable def World.add (w : World) (i : ℕ) (js : List ℕ) : Option World :=
  (w.objs[i]?).bind fun o => (w.value o).bind fun s =>
    (js.mapM fun j => (w.objs[j]?).bind w.value).bind fun ts =>
      match s.add ts with
      | (s', none) => some (w.storeNew i s')
      | _ => none

/-- Run one statement. -/
noncomputable def Op.run (op : Op) (w : World) : Option World :=
  match op with
  | .make s => some { vecs := w.vecs ++ [s.com], moms := w.moms ++ [⟨s.lmax, s.qlm⟩],
                      objs := w.objs ++ [⟨s.inner, w.moms.length, w.vecs.length, s.mass, s.mesh⟩] }
  | .newVec v => some { w with vecs := w.vecs ++ [some v] }
  | .setVec a v => if a < w.vecs.length then some { w with vecs := w.vecs.set a (some v) } else none
  | .rotate i alpha beta gamma => w.rotate i alpha beta gamma
  | .translate i a t => w.translate i a t
  | .add i js => w.add i js

/-- The empty memory. -/
def World.start : World := ⟨[], [], []⟩

/-- Run a program. -/
noncomputable def run : List Op → World → Option World
  | [], w => some w
  | op :: ops, w => (op.run w).bind (run ops)

end Newt.Heap
