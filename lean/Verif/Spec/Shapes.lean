import Verif.Model.Shapes
import Verif.Spec.Body

/-!
# Specification of the bookkeeping of `Shape` objects

`Books K s b` says what it means for the object `s` to describe the body `b`; `bodyStep` says what
a statement of a program means for the bodies.
-/

namespace Newt

open Spec

/-- The object `s` keeps the books of the body `b`, with moments exact up to degree `K`: the mass,
the centre of mass (when it is finite) and, as long as the moments are inner moments, all moments
of degree at most `K`. -/
structure Books (K : ℕ) (s : Shape) (b : Body) : Prop where
  mass : s.mass = b.mass
  com : ∀ c, s.com = some c → ∀ i, s.mass * c i = b.first i
  deg : K ≤ s.lmax
  moments : s.inner = true → ∃ q, s.qlm = some q ∧ Valid q ∧
    ∀ (l : ℕ) (m : ℤ), l ≤ K → m.natAbs ≤ l → q.get l m = b.inner l m

/-- What the operations do to the bodies. -/
noncomputable def bodyStep (h : List Body) : ShapeOp → List Body
  | .rotate i a b g => h.set i ((h.getD i []).rotate a b g)
  | .translate i d _ => h.set i ((h.getD i []).translate d)
  | .add i js => h.set i (h.getD i [] ++ (js.map fun j => h.getD j []).flatten)

/-- An object in normal use: inner moments, a mesh, a finite centre of mass, positive mass. -/
structure InUse (s : Shape) : Prop where
  inner : s.inner = true
  mesh : s.mesh.isSome
  com : s.com.isSome
  mass : 0 < s.mass

/-- A statement naming existing objects only, and translating to inner moments. -/
def ShapeOp.Fits (n : ℕ) : ShapeOp → Prop
  | .rotate i _ _ _ => i < n
  | .translate i _ t => i < n ∧ t = true
  | .add i js => i < n ∧ ∀ j ∈ js, j < n

end Newt
