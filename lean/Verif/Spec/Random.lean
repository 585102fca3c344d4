import Verif.Spec.BodyForce
import Verif.Spec.PointSolids
import Mathlib.Probability.Independence.Basic
import Mathlib.MeasureTheory.Measure.Lebesgue.Basic

/-!
# Specification: uniform random draws and the uniform spherical shell
-/

namespace Newt.Spec

open MeasureTheory ProbabilityTheory

/-- The uniform distribution on a set of pairs. -/
noncomputable def uniformLaw (S : Set (ℝ × ℝ)) : Measure (ℝ × ℝ) := (volume S)⁻¹ • volume.restrict S

/-- `X 0, X 1, ...` is a stream of pairs, any two of them independent, each uniform on `S`. -/
structure UniformDraws {Ω : Type*} [MeasurableSpace Ω] (P : Measure Ω) (X : ℕ → Ω → ℝ × ℝ) (S : Set (ℝ × ℝ)) : Prop where
  meas : ∀ k, Measurable (X k)
  indep : ∀ i j, i ≠ j → IndepFun (X i) (X j) P
  law : ∀ k, P.map (X k) = uniformLaw S

/-- The first `n` pairs of the stream. -/
def drawn {Ω : Type*} (X : ℕ → Ω → ℝ × ℝ) (n : ℕ) (ω : Ω) : List (ℝ × ℝ) := (List.range n).map fun k => X k ω

/-- The square `[-1,1] x [-1,1]`. -/
def square : Set (ℝ × ℝ) := Set.Icc (-1) 1 ×ˢ Set.Icc (-1) 1

/-- The point of the sphere of radius `r` at height `r u` and longitude `phi`. -/
noncomputable def shellMap (r : ℝ) (p : ℝ × ℝ) : V3 :=
  ![r * Real.sqrt (1 - p.1 ^ 2) * Real.cos p.2, r * Real.sqrt (1 - p.1 ^ 2) * Real.sin p.2, r * p.1]

theorem continuous_shellMap (r : ℝ) : Continuous (shellMap r) := by
  unfold shellMap
  refine continuous_pi fun i => ?_
  fin_cases i <;> simp <;> fun_prop

/-- Heights and longitudes of the sphere. -/
def shellBox : Set (ℝ × ℝ) := Set.Icc (-1) 1 ×ˢ Set.Icc (-Real.pi) Real.pi

/-- The mass spread uniformly over the sphere of radius `r` around the origin: the area of a zone is proportional to its
height (Archimedes), so the height `r u` and the longitude are uniform. -/
noncomputable def Body.shell (mass r : ℝ) : Body :=
  [{ rho := mass
     mu := (ENNReal.ofReal (4 * Real.pi))⁻¹ • (volume.restrict shellBox).map (shellMap r)
     fin := by
      have h : volume shellBox < ⊤ := (isCompact_Icc.prod isCompact_Icc).measure_lt_top
      have : IsFiniteMeasure (volume.restrict shellBox) := ⟨by simpa using h⟩
      have : IsFiniteMeasure ((volume.restrict shellBox).map (shellMap r)) := inferInstance
      refine ⟨?_⟩
      rw [Measure.smul_apply, smul_eq_mul]
      exact ENNReal.mul_lt_top (by simp [Real.pi_pos]) (measure_lt_top _ _)
     supp := by
      have hK : IsCompact (shellMap r '' shellBox) :=
        (isCompact_Icc.prod isCompact_Icc).image (continuous_shellMap r)
      refine ⟨_, hK, ?_⟩
      rw [Measure.smul_apply, smul_eq_mul, Measure.map_apply (continuous_shellMap r).measurable hK.isClosed.measurableSet.compl,
        Measure.restrict_apply ((continuous_shellMap r).measurable hK.isClosed.measurableSet.compl)]
      have : shellMap r ⁻¹' (shellMap r '' shellBox)ᶜ ∩ shellBox = ∅ := by
        ext p; simp only [Set.mem_inter_iff, Set.mem_preimage, Set.mem_compl_iff, Set.mem_empty_iff_false, iff_false, not_and]
        intro h h'; exact h ⟨p, h', rfl⟩
      rw [this]; simp }]

/-- The point of the plane `x = 0` with the coordinates `y` and `z`. -/
def inPlane (q : ℝ × ℝ) : V3 := ![0, q.1, q.2]

theorem continuous_inPlane : Continuous inPlane := by
  unfold inPlane
  refine continuous_pi fun i => ?_
  fin_cases i <;> simp <;> fun_prop

/-- The mass spread uniformly over a compact region of the plane `x = 0`. -/
noncomputable def Body.sheet (mass : ℝ) (B : Set (ℝ × ℝ)) (hB : IsCompact B) : Body :=
  [{ rho := mass / (volume B).toReal
     mu := (volume.restrict B).map inPlane
     fin := by
      have : IsFiniteMeasure (volume.restrict B) := ⟨by simpa using hB.measure_lt_top⟩
      infer_instance
     supp := by
      have hK : IsCompact (inPlane '' B) := hB.image continuous_inPlane
      refine ⟨_, hK, ?_⟩
      rw [Measure.map_apply continuous_inPlane.measurable hK.isClosed.measurableSet.compl,
        Measure.restrict_apply (continuous_inPlane.measurable hK.isClosed.measurableSet.compl)]
      have : inPlane ⁻¹' (inPlane '' B)ᶜ ∩ B = ∅ := by
        ext p; simp only [Set.mem_inter_iff, Set.mem_preimage, Set.mem_compl_iff, Set.mem_empty_iff_false, iff_false, not_and]
        intro h h'; exact h ⟨p, h', rfl⟩
      rw [this]; simp }]

/-- The annulus `i <= |q| <= o`. -/
def annulus2 (i o : ℝ) : Set (ℝ × ℝ) := {q | i ≤ Real.sqrt (q.1 ^ 2 + q.2 ^ 2) ∧ Real.sqrt (q.1 ^ 2 + q.2 ^ 2) ≤ o}

theorem annulus2_compact (i o : ℝ) : IsCompact (annulus2 i o) := by
  refine (isCompact_Icc.prod isCompact_Icc).of_isClosed_subset (s := Set.Icc (-o) o ×ˢ Set.Icc (-o) o) ?_ ?_
  · exact (isClosed_le (f := fun _ : ℝ × ℝ => i) (g := fun q : ℝ × ℝ => Real.sqrt (q.1 ^ 2 + q.2 ^ 2)) continuous_const
      (by fun_prop)).inter (isClosed_le (f := fun q : ℝ × ℝ => Real.sqrt (q.1 ^ 2 + q.2 ^ 2)) (g := fun _ : ℝ × ℝ => o)
      (by fun_prop) continuous_const)
  · intro q hq
    have h1 : |q.1| ≤ o := (Real.abs_le_sqrt (by nlinarith [sq_nonneg q.2])).trans hq.2
    have h2 : |q.2| ≤ o := (Real.abs_le_sqrt (by nlinarith [sq_nonneg q.1])).trans hq.2
    exact ⟨abs_le.1 h1, abs_le.1 h2⟩

/-- The rectangle with sides `y`, `z` around the origin. -/
def rect2 (y z : ℝ) : Set (ℝ × ℝ) := Set.Icc (-(y / 2)) (y / 2) ×ˢ Set.Icc (-(z / 2)) (z / 2)

theorem rect2_compact (y z : ℝ) : IsCompact (rect2 y z) := isCompact_Icc.prod isCompact_Icc

/-- The square `[0,1] x [0,1]`. -/
def unitSquare : Set (ℝ × ℝ) := Set.Icc 0 1 ×ˢ Set.Icc 0 1

end Newt.Spec
