import Verif.Spec.Solids
import Mathlib.MeasureTheory.Measure.Dirac
import Mathlib.MeasureTheory.Integral.IntegrableOn

/-!
# Specification: bodies as signed mass distributions

A body is a finite list of pieces, each a finite measure of compact support weighted with a real
density (negative for holes).  Point masses and uniform solids are special cases.
-/

namespace Newt.Spec

open MeasureTheory

/-- A weighted mass distribution of compact support. -/
structure Piece where
  rho : ℝ
  mu : Measure V3
  fin : IsFiniteMeasure mu
  supp : ∃ K, IsCompact K ∧ mu Kᶜ = 0

/-- A body. -/
abbrev Body := List Piece

/-- The total mass. -/
noncomputable def Body.mass (b : Body) : ℝ := (b.map fun p => p.rho * (p.mu Set.univ).toReal).sum

/-- The first moment (mass times centre of mass). -/
noncomputable def Body.first (b : Body) (i : Fin 3) : ℝ := (b.map fun p => p.rho * ∫ v, v i ∂p.mu).sum

/-- The inner multipole moment. -/
noncomputable def Body.inner (b : Body) (l : ℕ) (m : ℤ) : ℂ :=
  (b.map fun p => (p.rho : ℂ) * ∫ v, solidS l m v ∂p.mu).sum

/-- The outer multipole moment (meaningful for bodies with no mass near the origin). -/
noncomputable def Body.outer (b : Body) (l : ℕ) (m : ℤ) : ℂ :=
  (b.map fun p => (p.rho : ℂ) * ∫ v, solidO l m v ∂p.mu).sum

/-- The mass counted without sign. -/
noncomputable def Body.absMass (b : Body) : ℝ := (b.map fun p => |p.rho| * (p.mu Set.univ).toReal).sum

/-- All the mass lies within distance `a` of the origin. -/
def Body.InBall (b : Body) (a : ℝ) : Prop := ∀ p ∈ b, p.mu {v | a < modulus v} = 0

/-- All the mass lies at distance at least `a` from the origin. -/
def Body.OffBall (b : Body) (a : ℝ) : Prop := ∀ p ∈ b, p.mu {v | modulus v < a} = 0

/-- The Newtonian potential energy of two bodies, `-G ∬ dm dm' / |x - y|`. -/
noncomputable def Body.energy (G : ℝ) (b c : Body) : ℝ :=
  (b.map fun p => (c.map fun q => -(G * p.rho * q.rho) * ∫ x, ∫ y, 1 / modulus (y - x) ∂q.mu ∂p.mu).sum).sum

/-- The piece carried along by a continuous map of space. -/
noncomputable def Piece.move (p : Piece) (f : V3 → V3) (hf : Continuous f) : Piece where
  rho := p.rho
  mu := p.mu.map f
  fin := by have := p.fin; infer_instance
  supp := by
    obtain ⟨K, hK, h0⟩ := p.supp
    refine ⟨f '' K, hK.image hf, ?_⟩
    rw [Measure.map_apply hf.measurable (hK.image hf).isClosed.measurableSet.compl]
    refine measure_mono_null (t := Kᶜ) ?_ h0
    intro v hv hK'
    exact hv ⟨v, hK', rfl⟩

/-- Turn about the z axis (right-handed). -/
noncomputable def turnZ (t : ℝ) (v : V3) : V3 :=
  ![v 0 * Real.cos t - v 1 * Real.sin t, v 0 * Real.sin t + v 1 * Real.cos t, v 2]

/-- Turn about the y axis (right-handed). -/
noncomputable def turnY (t : ℝ) (v : V3) : V3 :=
  ![v 0 * Real.cos t + v 2 * Real.sin t, v 1, v 2 * Real.cos t - v 0 * Real.sin t]

theorem continuous_turnZ (t : ℝ) : Continuous (turnZ t) := by
  unfold turnZ
  refine continuous_pi fun i => ?_
  fin_cases i <;> simp <;> fun_prop

theorem continuous_turnY (t : ℝ) : Continuous (turnY t) := by
  unfold turnY
  refine continuous_pi fun i => ?_
  fin_cases i <;> simp <;> fun_prop

/-- The z-y-z Euler rotation: first `gamma` about z, then `beta` about y, then `alpha` about z. -/
noncomputable def euler (alpha beta gamma : ℝ) (v : V3) : V3 := turnZ alpha (turnY beta (turnZ gamma v))

theorem continuous_euler (alpha beta gamma : ℝ) : Continuous (euler alpha beta gamma) :=
  (continuous_turnZ alpha).comp ((continuous_turnY beta).comp (continuous_turnZ gamma))

/-- The body rotated. -/
noncomputable def Body.rotate (b : Body) (alpha beta gamma : ℝ) : Body :=
  b.map fun p => p.move (euler alpha beta gamma) (continuous_euler alpha beta gamma)

/-- The body translated. -/
noncomputable def Body.translate (b : Body) (d : V3) : Body :=
  b.map fun p => p.move (fun v => v + d) (continuous_id.add continuous_const)

/-- A point mass. -/
noncomputable def Piece.point (p : Pt) : Piece where
  rho := p.mass
  mu := Measure.dirac p.pos
  fin := inferInstance
  supp := ⟨{p.pos}, isCompact_singleton, by simp⟩

/-- A body of point masses. -/
noncomputable def Body.points (A : PtArray) : Body := A.map Piece.point

/-- Mass spread uniformly over a compact set. -/
noncomputable def Body.solid (mass : ℝ) (S : Set V3) (hS : IsCompact S) : Body :=
  [{ rho := mass / (volume S).toReal
     mu := volume.restrict S
     fin := ⟨by simpa using hS.measure_lt_top⟩
     supp := ⟨S, hS, by simp [Measure.restrict_apply hS.isClosed.measurableSet.compl]⟩ }]

end Newt.Spec
