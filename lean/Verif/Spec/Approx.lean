import Verif.Spec.PointSolids
import Verif.Spec.BodyForce
import Verif.Model.GlibShapes

/-!
# Specification: point arrays that approximate a uniform solid
-/

namespace Newt.Spec

open MeasureTheory Filter Topology

/-- Along the filter, the point arrays become equidistributed over the solid `S` with total mass `mass`: eventually
every point lies in `S` and all points have the same mass `mass / (number of points)`, and for every function `f` that
is continuous on `S`, `sum_i m_i f(x_i)` tends to `mass / volume(S) * integral of f over S`. -/
structure Fills {ι : Type*} (F : Filter ι) (B : ι → PtArray) (mass : ℝ) (S : Set V3) : Prop where
  inside : ∀ᶠ n in F, Inside (B n) S
  equal : ∀ᶠ n in F, ∀ p ∈ B n, p.mass = mass / (B n).length
  tends : ∀ f : V3 → ℝ, ContinuousOn f S →
    Tendsto (fun n => ((B n).map fun p => p.mass * f p.pos).sum) F (𝓝 (mass / (volume S).toReal * ∫ v in S, f v))

/-- Along the filter, the generator succeeds and its arrays fill the solid `S` uniformly with total mass `mass`. -/
def Approximates {ι : Type*} (F : Filter ι) (A : ι → Shp.Out) (mass : ℝ) (S : Set V3) : Prop :=
  ∃ B : ι → PtArray, (∀ᶠ n in F, A n = .ok (B n)) ∧ Fills F B mass S

/-- The part of the plate `|z| <= t/2` swept by horizontal discs of radius `r` with centres on the line through the
origin that makes the angle `theta` with the z axis. -/
def slantedPlate (t r theta : ℝ) : Set V3 :=
  {v | |v 2| ≤ t / 2 ∧ v 1 ^ 2 + (v 0 - v 2 * Real.tan theta) ^ 2 ≤ r ^ 2}

/-- The set moved by `d` along y. -/
def shiftY (d : ℝ) (S : Set V3) : Set V3 := {v | ![v 0, v 1 - d, v 2] ∈ S}

/-- The integral of `f` over the mass distribution of the body, `∫ f dm`. -/
noncomputable def Body.sumOver (b : Body) (f : V3 → ℝ) : ℝ := (b.map fun p => p.rho * ∫ v, f v ∂p.mu).sum

/-- Along the filter, the point arrays become the body `b`, everything happening inside `K`: the points lie in `K`, the
masses counted without sign stay bounded, the body has no mass outside `K`, and `sum_i m_i f(x_i)` tends to `∫ f dm` for
every function `f` that is continuous on `K`. -/
structure Tracks {ι : Type*} (F : Filter ι) (A : ι → PtArray) (b : Body) (K : Set V3) : Prop where
  inside : ∀ᶠ n in F, Inside (A n) K
  bounded : ∃ C : ℝ, ∀ᶠ n in F, ((A n).map fun p => |p.mass|).sum ≤ C
  support : ∀ p ∈ b, p.mu Kᶜ = 0
  tends : ∀ f : V3 → ℝ, ContinuousOn f K → Tendsto (fun n => ((A n).map fun p => p.mass * f p.pos).sum) F (𝓝 (b.sumOver f))

/-- The force of the Yukawa interaction `-alpha G m m' exp(-r/lmbd)/r` on the body `b` due to the body `c`:
`alpha G ∬ dm dm' exp(-r/lmbd) (1 + r/lmbd) (y - x)/r³`, `r = |y - x|`. -/
noncomputable def Body.yukawaForce (alpha lmbd G : ℝ) (b c : Body) (i : Fin 3) : ℝ :=
  (b.map fun p => (c.map fun q => alpha * G * p.rho * q.rho * ∫ x, ∫ y, Real.exp (-modulus (y - x) / lmbd) *
    (1 + modulus (y - x) / lmbd) * (y - x) i / modulus (y - x) ^ 3 ∂q.mu ∂p.mu).sum).sum

/-- The torque about the origin of the same interaction. -/
noncomputable def Body.yukawaTorque (alpha lmbd G : ℝ) (b c : Body) (i : Fin 3) : ℝ :=
  (b.map fun p => (c.map fun q => alpha * G * p.rho * q.rho * ∫ x, ∫ y, Real.exp (-modulus (y - x) / lmbd) *
    (1 + modulus (y - x) / lmbd) * (crossProduct x (y - x)) i / modulus (y - x) ^ 3 ∂q.mu ∂p.mu).sum).sum

end Newt.Spec
