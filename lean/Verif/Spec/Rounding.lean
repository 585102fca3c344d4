import Verif.Model.Glib

/-!
# Specification: the sizes that rounding errors are measured against
-/

namespace Newt.Spec

/-- Component `i` of Newton's force of `q` on `p`. -/
noncomputable def pairForce (p q : Pt) (i : Fin 3) : ℝ :=
  BIG_G * p.mass * q.mass * (q.pos i - p.pos i) / Real.sqrt ((q.pos 0 - p.pos 0) ^ 2 + (q.pos 1 - p.pos 1) ^ 2 + (q.pos 2 - p.pos 2) ^ 2) ^ 3

/-- Component `i` of the Yukawa force of `q` on `p`. -/
noncomputable def yukPairForce (alpha l : ℝ) (p q : Pt) (i : Fin 3) : ℝ :=
  let r := Real.sqrt ((q.pos 0 - p.pos 0) ^ 2 + (q.pos 1 - p.pos 1) ^ 2 + (q.pos 2 - p.pos 2) ^ 2)
  alpha * BIG_G * p.mass * q.mass * Real.exp (-r / l) * (1 / r ^ 3 + 1 / (r ^ 2 * l)) * (q.pos i - p.pos i)

/-- The sum of the absolute values of all pair forces (component `i`). -/
noncomputable def grossForce (A B : PtArray) (i : Fin 3) : ℝ := (A.map fun p => (B.map fun q => |pairForce p q i|).sum).sum

/-- The sum of the absolute values of the two products in each component of each pair torque. -/
noncomputable def grossTorque (A B : PtArray) (i : Fin 3) : ℝ :=
  (A.map fun p => (B.map fun q => |p.pos (i + 1)| * |pairForce p q (i + 2)| + |p.pos (i + 2)| * |pairForce p q (i + 1)|).sum).sum

/-- The relative error that `k` roundings of relative size `u` can accumulate to (about `k u`). -/
noncomputable def relErr (u : ℝ) (k : ℕ) : ℝ := ((1 - u) ^ k)⁻¹ - 1

/-- Successive calls, each on the result of the one before: `step s A B` says that the call with the arguments `s` may turn `A` into `B`. -/
inductive Chain {α : Type} (step : α → PtArray → PtArray → Prop) : List α → PtArray → PtArray → Prop
  | nil (A : PtArray) : Chain step [] A A
  | cons {s : α} {l : List α} {A B C : PtArray} : step s A B → Chain step l B C → Chain step (s :: l) A C

end Newt.Spec
