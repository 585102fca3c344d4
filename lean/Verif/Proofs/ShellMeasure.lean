import Verif.Spec.Random
import Verif.Spec.Approx
import Mathlib.Analysis.SpecialFunctions.PolarCoord
import Mathlib.MeasureTheory.Integral.IntervalIntegral.FundThmCalculus
import Mathlib.MeasureTheory.Integral.IntervalIntegral.IntegrationByParts
import Mathlib.MeasureTheory.Integral.Prod

/-!
# Integrals over the uniform spherical shell
-/

namespace Newt

open MeasureTheory Filter Topology Spec

/-- The uniform distribution on the sphere of radius `r`. -/
noncomputable def shellMu (r : ℝ) : Measure V3 := (ENNReal.ofReal (4 * Real.pi))⁻¹ • (volume.restrict shellBox).map (shellMap r)

/-- The integral over the shell as an iterated interval integral. -/
theorem shellMu_integral {E : Type*} [NormedAddCommGroup E] [NormedSpace ℝ E] [CompleteSpace E] (r : ℝ) (f : V3 → E) (hf : Continuous f) :
    ∫ v, f v ∂shellMu r = (1 / (4 * Real.pi)) • ∫ φ in (-Real.pi)..Real.pi, ∫ u in (-1 : ℝ)..1, f (shellMap r (u, φ)) := by
  have hpi := Real.pi_pos
  have hm := continuous_shellMap r
  rw [shellMu, integral_smul_measure, integral_map hm.aemeasurable hf.aestronglyMeasurable, ENNReal.toReal_inv,
    ENNReal.toReal_ofReal (by positivity)]
  have hc : Continuous fun p : ℝ × ℝ => f (shellMap r p) := hf.comp hm
  have h1 : ∫ p in shellBox, f (shellMap r p) = ∫ φ in (-Real.pi)..Real.pi, ∫ u in (-1 : ℝ)..1, f (shellMap r (u, φ)) := by
    rw [intervalIntegral.integral_of_le (by linarith), ← integral_Icc_eq_integral_Ioc]
    have e : ∀ φ : ℝ, ∫ u in (-1 : ℝ)..1, f (shellMap r (u, φ)) = ∫ u in Set.Icc (-1 : ℝ) 1, f (shellMap r (u, φ)) := by
      intro φ
      rw [intervalIntegral.integral_of_le (by norm_num), ← integral_Icc_eq_integral_Ioc]
    simp only [e]
    have hint : IntegrableOn (fun p : ℝ × ℝ => f (shellMap r p)) (Set.Icc (-1) 1 ×ˢ Set.Icc (-Real.pi) Real.pi) (volume.prod volume) :=
      hc.continuousOn.integrableOn_compact (isCompact_Icc.prod isCompact_Icc)
    rw [shellBox]
    rw [show (volume : Measure (ℝ × ℝ)) = volume.prod volume from rfl, setIntegral_prod _ hint]
    rw [integral_integral_swap]
    rw [Function.uncurry_def, Measure.prod_restrict]
    exact hint
  rw [h1, one_div]

theorem shell_sumOver (M r : ℝ) (f : V3 → ℝ) (hf : Continuous f) :
    (Body.shell M r).sumOver f =
      M / (4 * Real.pi) * ∫ φ in (-Real.pi)..Real.pi, ∫ u in (-1 : ℝ)..1, f (shellMap r (u, φ)) := by
  simp only [Body.sumOver, Body.shell, List.map_cons, List.map_nil, List.sum_cons, List.sum_nil, add_zero]
  change M * ∫ v, f v ∂shellMu r = _
  rw [shellMu_integral r f hf, smul_eq_mul]
  ring

/-- The map of Marsaglia's method used by the random shell generators. -/
noncomputable def marsaglia (r : ℝ) (p : ℝ × ℝ) : V3 :=
  ![2 * p.1 * Real.sqrt (1 - (p.1 ^ 2 + p.2 ^ 2)) * r, 2 * p.2 * Real.sqrt (1 - (p.1 ^ 2 + p.2 ^ 2)) * r,
    (1 - 2 * (p.1 ^ 2 + p.2 ^ 2)) * r]

theorem continuous_marsaglia (r : ℝ) : Continuous (marsaglia r) := by
  unfold marsaglia
  refine continuous_pi fun i => ?_
  fin_cases i <;> simp <;> fun_prop

theorem marsaglia_polar (r ρ φ : ℝ) (h0 : 0 ≤ ρ) :
    marsaglia r (ρ * Real.cos φ, ρ * Real.sin φ) = shellMap r (1 - 2 * ρ ^ 2, φ) := by
  have h1 : (ρ * Real.cos φ) ^ 2 + (ρ * Real.sin φ) ^ 2 = ρ ^ 2 := by
    have := Real.sin_sq_add_cos_sq φ; linear_combination ρ ^ 2 * this
  have h2 : Real.sqrt (1 - (1 - 2 * ρ ^ 2) ^ 2) = 2 * ρ * Real.sqrt (1 - ρ ^ 2) := by
    rw [show 1 - (1 - 2 * ρ ^ 2) ^ 2 = (2 * ρ) ^ 2 * (1 - ρ ^ 2) by ring, Real.sqrt_mul (by positivity),
      Real.sqrt_sq (by positivity)]
  simp only [marsaglia, shellMap, h1, h2]
  ext i
  fin_cases i <;> simp <;> ring

/-- Marsaglia's map carries the uniform distribution on the disc to the uniform distribution on the sphere. -/
theorem marsaglia_integral (r : ℝ) (f : V3 → ℝ) (hf : Continuous f) :
    ∫ p in {p : ℝ × ℝ | p.1 ^ 2 + p.2 ^ 2 < 1}, f (marsaglia r p) =
      1 / 4 * ∫ φ in (-Real.pi)..Real.pi, ∫ u in (-1 : ℝ)..1, f (shellMap r (u, φ)) := by
  classical
  have hpi := Real.pi_pos
  have hD : MeasurableSet {p : ℝ × ℝ | p.1 ^ 2 + p.2 ^ 2 < 1} := (isOpen_lt (by fun_prop) (by fun_prop)).measurableSet
  rw [← integral_indicator hD, ← integral_comp_polarCoord_symm]
  set E : Set (ℝ × ℝ) := Set.Ioo 0 1 ×ˢ Set.Ioo (-Real.pi) Real.pi with hE
  have hEm : MeasurableSet E := measurableSet_Ioo.prod measurableSet_Ioo
  have hsub : E ⊆ polarCoord.target := by
    intro p hp
    rw [polarCoord_target]
    exact ⟨hp.1.1, hp.2⟩
  have h1 : ∫ p in polarCoord.target, p.1 • Set.indicator {p : ℝ × ℝ | p.1 ^ 2 + p.2 ^ 2 < 1} (fun p => f (marsaglia r p)) (polarCoord.symm p)
      = ∫ p in E, p.1 * f (shellMap r (1 - 2 * p.1 ^ 2, p.2)) := by
    rw [← integral_indicator hEm, ← integral_indicator polarCoord.open_target.measurableSet]
    congr 1
    funext p
    rw [Set.indicator_apply, Set.indicator_apply]
    by_cases hp : p ∈ polarCoord.target
    · have hp' := hp
      rw [polarCoord_target] at hp'
      have hp1 : 0 < p.1 := hp'.1
      rw [if_pos hp, polarCoord_symm_apply, Set.indicator_apply]
      have hsq : (p.1 * Real.cos p.2) ^ 2 + (p.1 * Real.sin p.2) ^ 2 = p.1 ^ 2 := by
        have := Real.sin_sq_add_cos_sq p.2; linear_combination p.1 ^ 2 * this
      by_cases h : p.1 < 1
      · have hm : (p.1 * Real.cos p.2, p.1 * Real.sin p.2) ∈ {p : ℝ × ℝ | p.1 ^ 2 + p.2 ^ 2 < 1} := by
          change (p.1 * Real.cos p.2) ^ 2 + (p.1 * Real.sin p.2) ^ 2 < 1
          rw [hsq]; nlinarith
        rw [if_pos hm, if_pos (show p ∈ E from ⟨⟨hp1, h⟩, hp'.2⟩), marsaglia_polar _ _ _ hp1.le, smul_eq_mul]
      · have hm : (p.1 * Real.cos p.2, p.1 * Real.sin p.2) ∉ {p : ℝ × ℝ | p.1 ^ 2 + p.2 ^ 2 < 1} := by
          change ¬ ((p.1 * Real.cos p.2) ^ 2 + (p.1 * Real.sin p.2) ^ 2 < 1)
          rw [hsq]; nlinarith
        rw [if_neg hm, if_neg (fun hE => h hE.1.2), smul_zero]
    · rw [if_neg hp, Set.indicator_of_notMem (fun h => hp (hsub h))]
  rw [h1]
  have hc : Continuous fun p : ℝ × ℝ => p.1 * f (shellMap r (1 - 2 * p.1 ^ 2, p.2)) :=
    continuous_fst.mul (hf.comp ((continuous_shellMap r).comp (by fun_prop)))
  have hint : IntegrableOn (fun p : ℝ × ℝ => p.1 * f (shellMap r (1 - 2 * p.1 ^ 2, p.2))) E (volume.prod volume) := by
    refine (hc.continuousOn.integrableOn_compact (isCompact_Icc.prod isCompact_Icc)).mono_set (t := Set.Icc 0 1 ×ˢ Set.Icc (-Real.pi) Real.pi) ?_
    exact Set.prod_mono Set.Ioo_subset_Icc_self Set.Ioo_subset_Icc_self
  rw [show (volume : Measure (ℝ × ℝ)) = volume.prod volume from rfl, hE, setIntegral_prod _ hint, integral_integral_swap]
  · rw [← integral_Ioc_eq_integral_Ioo, ← intervalIntegral.integral_of_le (by linarith), ← intervalIntegral.integral_const_mul]
    refine intervalIntegral.integral_congr fun φ _ => ?_
    simp only
    rw [← integral_Ioc_eq_integral_Ioo, ← intervalIntegral.integral_of_le (by norm_num)]
    have hF : Continuous fun u : ℝ => f (shellMap r (u, φ)) := hf.comp ((continuous_shellMap r).comp (by fun_prop))
    have hs := intervalIntegral.integral_comp_mul_deriv (a := (0 : ℝ)) (b := 1) (f := fun x : ℝ => 1 - 2 * x ^ 2) (f' := fun x => -4 * x)
      (g := fun u => f (shellMap r (u, φ))) (fun x _ => by
        have := ((hasDerivAt_pow 2 x).const_mul 2).const_sub 1
        refine this.congr_deriv ?_
        simp; ring) (by fun_prop) hF
    simp only [Function.comp_apply] at hs
    rw [show (1 : ℝ) - 2 * 0 ^ 2 = 1 by norm_num, show (1 : ℝ) - 2 * 1 ^ 2 = -1 by norm_num, intervalIntegral.integral_symm (-1)] at hs
    have e : ∫ x in (0 : ℝ)..1, f (shellMap r (1 - 2 * x ^ 2, φ)) * (-4 * x) = -4 * ∫ x in (0 : ℝ)..1, x * f (shellMap r (1 - 2 * x ^ 2, φ)) := by
      rw [← intervalIntegral.integral_const_mul]
      exact intervalIntegral.integral_congr fun x _ => by ring
    rw [e] at hs
    linarith
  · rw [Function.uncurry_def, Measure.prod_restrict]
    exact hint

end Newt
