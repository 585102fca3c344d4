import Verif.Model.ShapeHeap
import Verif.Spec.Shapes

/-!
# Specification: what a program on `Shape` objects means when arrays are treated as values
-/

namespace Newt.Heap

/-- Reading all objects gives the shapes `hs`. -/
def World.Shapes (w : World) (hs : List Shape) : Prop := w.objs.map w.value = hs.map some

/-- The meaning of a statement for the list of shapes: constructors append, methods act as in `Model/Shapes` with the contents of `tvec` at the time of
the call, the user's arrays do not matter. -/
noncomputable def meaning (w : World) (op : Op) (hs : List Shape) : Option (List Shape) :=
  match op with
  | .make s => some (hs ++ [s])
  | .newVec _ => some hs
  | .setVec _ _ => some hs
  | .rotate i alpha beta gamma => (ShapeOp.rotate i alpha beta gamma).run hs
  | .translate i a t => (w.vecs[a]?).bind fun d => d.bind fun d => (ShapeOp.translate i d t).run hs
  | .add i js => (ShapeOp.add i js).run hs

/-- The meaning of a statement for the bodies the objects describe; a constructor makes an object describing `new`. -/
noncomputable def bodies (w : World) (op : Op) (new : Spec.Body) (bs : List Spec.Body) : List Spec.Body :=
  match op with
  | .make _ => bs ++ [new]
  | .newVec _ => bs
  | .setVec _ _ => bs
  | .rotate i alpha beta gamma => bodyStep bs (.rotate i alpha beta gamma)
  | .translate i a t => bodyStep bs (.translate i (((w.vecs[a]?).bind id).getD 0) t)
  | .add i js => bodyStep bs (.add i js)

/-- A statement in which the user does not write into the `com` array of an object and does not pass an object's own `com` array to its `translate`. -/
def Clean (w : World) : Op → Prop
  | .setVec a _ => a < w.vecs.length ∧ ∀ o ∈ w.objs, o.com ≠ a
  | .translate i a _ => ∀ o, w.objs[i]? = some o → o.com ≠ a
  | _ => True

/-- The states a program of such statements can reach, with the bodies the objects should describe, to degree `K`. -/
inductive Reach (K : ℕ) : World → List Spec.Body → Prop
  | start : Reach K World.start []
  | step (w w' : World) (bs : List Spec.Body) (op : Op) (new : Spec.Body) : Reach K w bs → Clean w op →
      (∀ s, op = .make s → Books K s new) → op.run w = some w' → Reach K w' (bodies w op new bs)

/-- Objects do not share arrays, and refer to existing ones. -/
def Separate (w : World) : Prop :=
  (∀ (i j : ℕ) (o p : Obj), w.objs[i]? = some o → w.objs[j]? = some p → i ≠ j → o.com ≠ p.com ∧ o.qlm ≠ p.qlm) ∧
  ∀ o ∈ w.objs, o.com < w.vecs.length ∧ o.qlm < w.moms.length

/-- The object a method is called on. -/
def Op.target : Op → Option ℕ
  | .rotate i _ _ _ => some i
  | .translate i _ _ => some i
  | .add i _ => some i
  | _ => none

end Newt.Heap
