import Verif.Proofs.TripleInt
import Verif.Proofs.ShellMeasure
import Verif.Proofs.QlmBall
import Mathlib.MeasureTheory.Measure.HasOuterApproxClosed
import Mathlib.MeasureTheory.Integral.IntervalIntegral.FundThmCalculus

/-! # The ball as a pile of shells, and the rotational symmetry of the shell -/

namespace Newt

open MeasureTheory Spec Filter Topology

/-- The half disc. -/
def halfDisc (R : ℝ) : Set (ℝ × ℝ) := {p | 0 ≤ p.1 ∧ p.1 ^ 2 + p.2 ^ 2 ≤ R ^ 2}

theorem halfDisc_compact {R : ℝ} (hR : 0 ≤ R) : IsCompact (halfDisc R) := by
  refine (isCompact_Icc.prod isCompact_Icc).of_isClosed_subset (s := Set.Icc (-R) R ×ˢ Set.Icc (-R) R) ?_ ?_
  · exact (isClosed_le (f := fun _ : ℝ × ℝ => (0 : ℝ)) (g := fun p : ℝ × ℝ => p.1) continuous_const (by fun_prop)).inter
      (isClosed_le (f := fun p : ℝ × ℝ => p.1 ^ 2 + p.2 ^ 2) (g := fun _ : ℝ × ℝ => R ^ 2) (by fun_prop) continuous_const)
  · rintro p ⟨h1, h2⟩
    exact ⟨abs_le.1 (abs_le_of_sq_le_sq (by nlinarith [sq_nonneg p.2]) hR), abs_le.1 (abs_le_of_sq_le_sq (by nlinarith [sq_nonneg p.1]) hR)⟩

theorem halfDisc_cart {R : ℝ} (hR : 0 ≤ R) (G : ℝ × ℝ → ℝ) (hG : Continuous G) :
    ∫ r in (0 : ℝ)..R, ∫ z in (-Real.sqrt (R ^ 2 - r ^ 2))..(Real.sqrt (R ^ 2 - r ^ 2)), G (r, z) = ∫ p, (halfDisc R).indicator G p := by
  have hm := (halfDisc_compact hR).isClosed.measurableSet
  have hi : Integrable ((halfDisc R).indicator G) (volume.prod volume) :=
    (integrable_indicator_iff hm).2 (hG.continuousOn.integrableOn_compact (halfDisc_compact hR))
  rw [show (volume : Measure (ℝ × ℝ)) = volume.prod volume from rfl, integral_prod _ hi,
    intervalIntegral.integral_of_le hR, ← integral_Icc_eq_integral_Ioc, ← integral_indicator measurableSet_Icc]
  congr 1
  funext r
  by_cases hr : r ∈ Set.Icc 0 R
  · rw [Set.indicator_of_mem hr]
    have hs := Real.sqrt_nonneg (R ^ 2 - r ^ 2)
    rw [intervalIntegral.integral_of_le (by linarith), ← integral_Icc_eq_integral_Ioc, ← integral_indicator measurableSet_Icc]
    congr 1
    funext z
    have hiff : z ∈ Set.Icc (-Real.sqrt (R ^ 2 - r ^ 2)) (Real.sqrt (R ^ 2 - r ^ 2)) ↔ (r, z) ∈ halfDisc R := by
      have h2 : 0 ≤ R ^ 2 - r ^ 2 := by nlinarith [hr.1, hr.2]
      rw [Set.mem_Icc, ← abs_le, ← Real.sqrt_sq_eq_abs, Real.sqrt_le_sqrt_iff h2]
      simp only [halfDisc, Set.mem_setOf_eq]
      constructor
      · intro h; exact ⟨hr.1, by linarith⟩
      · rintro ⟨-, h⟩; linarith
    by_cases hz : z ∈ Set.Icc (-Real.sqrt (R ^ 2 - r ^ 2)) (Real.sqrt (R ^ 2 - r ^ 2))
    · rw [Set.indicator_of_mem hz, Set.indicator_of_mem (hiff.1 hz)]
    · rw [Set.indicator_of_notMem hz, Set.indicator_of_notMem (fun h => hz (hiff.2 h))]
  · rw [Set.indicator_of_notMem hr]
    have : ∀ z, (halfDisc R).indicator G (r, z) = 0 := fun z => Set.indicator_of_notMem (fun h => hr ⟨h.1, by
      have := h.2
      simp only at this
      exact abs_le_of_sq_le_sq' (by nlinarith [sq_nonneg z]) hR |>.2⟩) _
    simp [this]

theorem halfDisc_polar {R : ℝ} (hR : 0 ≤ R) (G : ℝ × ℝ → ℝ) (hG : Continuous G) :
    ∫ p, (halfDisc R).indicator G p =
      ∫ r in (0 : ℝ)..R, ∫ t in (-(Real.pi / 2))..(Real.pi / 2), r * G (r * Real.cos t, r * Real.sin t) := by
  have hpi := Real.pi_pos
  rw [← integral_comp_polarCoord_symm]
  simp only [polarCoord_symm_apply, polarCoord_target, smul_eq_mul]
  have hc : Continuous fun p : ℝ × ℝ => p.1 * G (p.1 * Real.cos p.2, p.1 * Real.sin p.2) := by fun_prop
  have hi : IntegrableOn (fun p : ℝ × ℝ => p.1 * G (p.1 * Real.cos p.2, p.1 * Real.sin p.2))
      (Set.Ioc 0 R ×ˢ Set.Icc (-(Real.pi / 2)) (Real.pi / 2)) (volume.prod volume) :=
    (hc.continuousOn.integrableOn_compact (isCompact_Icc.prod isCompact_Icc)).mono_set
      (Set.prod_mono (Set.Ioc_subset_Icc_self (a := 0) (b := R)) subset_rfl)
  have e : ∫ p in Set.Ioi (0 : ℝ) ×ˢ Set.Ioo (-Real.pi) Real.pi, p.1 * (halfDisc R).indicator G (p.1 * Real.cos p.2, p.1 * Real.sin p.2)
      = ∫ p in Set.Ioc 0 R ×ˢ Set.Icc (-(Real.pi / 2)) (Real.pi / 2), p.1 * G (p.1 * Real.cos p.2, p.1 * Real.sin p.2) := by
    rw [← integral_indicator (measurableSet_Ioi.prod measurableSet_Ioo), ← integral_indicator (measurableSet_Ioc.prod measurableSet_Icc)]
    congr 1
    funext p
    obtain ⟨r, t⟩ := p
    by_cases h : (r, t) ∈ Set.Ioi (0 : ℝ) ×ˢ Set.Ioo (-Real.pi) Real.pi
    · rw [Set.indicator_of_mem h]
      obtain ⟨hr, ht⟩ := h
      simp only [Set.mem_Ioi, Set.mem_Ioo] at hr ht
      have hiff : (r, t) ∈ Set.Ioc 0 R ×ˢ Set.Icc (-(Real.pi / 2)) (Real.pi / 2) ↔ (r * Real.cos t, r * Real.sin t) ∈ halfDisc R := by
        simp only [halfDisc, Set.mem_setOf_eq, Set.mem_prod, Set.mem_Ioc, Set.mem_Icc]
        have e2 : (r * Real.cos t) ^ 2 + (r * Real.sin t) ^ 2 = r ^ 2 := by linear_combination r ^ 2 * Real.sin_sq_add_cos_sq t
        rw [e2, sq_le_sq₀ hr.le hR]
        constructor
        · rintro ⟨⟨-, h1⟩, h2, h3⟩
          exact ⟨mul_nonneg hr.le (Real.cos_nonneg_of_mem_Icc ⟨h2, h3⟩), h1⟩
        · rintro ⟨h1, h2⟩
          refine ⟨⟨hr, h2⟩, ?_, ?_⟩
          · by_contra h3
            push Not at h3
            have := Real.cos_neg_of_pi_div_two_lt_of_lt (x := -t) (by linarith) (by linarith [ht.1])
            rw [Real.cos_neg] at this
            nlinarith
          · by_contra h3
            push Not at h3
            have := Real.cos_neg_of_pi_div_two_lt_of_lt (x := t) (by linarith) (by linarith [ht.2])
            nlinarith
      by_cases hd : (r * Real.cos t, r * Real.sin t) ∈ halfDisc R
      · rw [Set.indicator_of_mem hd, Set.indicator_of_mem (hiff.2 hd)]
      · rw [Set.indicator_of_notMem hd, Set.indicator_of_notMem (fun h => hd (hiff.1 h)), mul_zero]
    · rw [Set.indicator_of_notMem h, Set.indicator_of_notMem]
      rintro ⟨h1, h2⟩
      simp only [Set.mem_Ioc, Set.mem_Icc] at h1 h2
      exact h ⟨h1.1, by constructor <;> simp only <;> linarith [h2.1, h2.2]⟩
  rw [e, show (volume : Measure (ℝ × ℝ)) = volume.prod volume from rfl, setIntegral_prod _ hi, intervalIntegral.integral_of_le hR]
  congr 1
  funext r
  rw [intervalIntegral.integral_of_le (by linarith), ← integral_Icc_eq_integral_Ioc]

theorem zone_int (g : ℝ → ℝ → ℝ) (hg : Continuous (Function.uncurry g)) :
    ∫ t in (-(Real.pi / 2))..(Real.pi / 2), Real.cos t * g (Real.cos t) (Real.sin t) = ∫ u in (-1 : ℝ)..1, g (Real.sqrt (1 - u ^ 2)) u := by
  have h := intervalIntegral.integral_comp_mul_deriv (a := -(Real.pi / 2)) (b := Real.pi / 2) (f := Real.sin) (f' := Real.cos)
    (g := fun u => g (Real.sqrt (1 - u ^ 2)) u) (fun t _ => Real.hasDerivAt_sin t) Real.continuous_cos.continuousOn
    (hg.comp (by fun_prop : Continuous fun u : ℝ => (Real.sqrt (1 - u ^ 2), u)))
  rw [Real.sin_neg, Real.sin_pi_div_two] at h
  rw [← h]
  apply intervalIntegral.integral_congr
  intro t ht
  rw [Set.uIcc_of_le (by linarith [Real.pi_pos])] at ht
  have hc := Real.cos_nonneg_of_mem_Icc ht
  have : Real.sqrt (1 - Real.sin t ^ 2) = Real.cos t := by
    rw [show 1 - Real.sin t ^ 2 = Real.cos t ^ 2 by linarith [Real.sin_sq_add_cos_sq t], Real.sqrt_sq hc]
  simp only [Function.comp, this]
  ring

/-- The ball is made of shells. -/
theorem ball_shells {R : ℝ} (hR : 0 ≤ R) (f : V3 → ℝ) (hf : Continuous f) :
    ∫ v in ball R, f v = ∫ r in (0 : ℝ)..R, 4 * Real.pi * r ^ 2 * ∫ v, f v ∂shellMu r := by
  have hpi := Real.pi_pos
  obtain ⟨C, hC⟩ := (ball_compact R).exists_bound_of_continuousOn hf.continuousOn
  have key := integral_cylindrical (ball R) (ball_compact R).isClosed.measurableSet f hf.measurable R R (max C 0) (le_max_right _ _)
    (fun v hv => (hC v hv).trans (le_max_left _ _))
    (fun v hv => by
      have h1 : modulus v ≤ R := hv
      have h2 : v 0 ^ 2 + v 1 ^ 2 + v 2 ^ 2 ≤ R ^ 2 := by
        rw [← Real.sqrt_le_left hR]; exact h1
      exact ⟨by nlinarith [sq_nonneg (v 2)], abs_le_of_sq_le_sq (by nlinarith [sq_nonneg (v 0), sq_nonneg (v 1)]) hR⟩)
    hR hR Real.pi hpi.le le_rfl (fun _ => 0) (fun _ => R) (fun _ r => -Real.sqrt (R ^ 2 - r ^ 2)) (fun _ r => Real.sqrt (R ^ 2 - r ^ 2))
    (fun _ _ _ => le_rfl) (fun _ _ _ => hR) (fun _ r _ _ _ _ => by linarith [Real.sqrt_nonneg (R ^ 2 - r ^ 2)])
    (by
      intro p r z hr hp1 hp2
      have e : (r * Real.cos p) ^ 2 + (r * Real.sin p) ^ 2 = r ^ 2 := by linear_combination r ^ 2 * Real.sin_sq_add_cos_sq p
      have e2 : (![r * Real.cos p, r * Real.sin p, z] : V3) ∈ ball R ↔ r ^ 2 + z ^ 2 ≤ R ^ 2 := by
        change modulus _ ≤ R ↔ _
        rw [modulus]
        simp only [Matrix.cons_val, e]
        exact Real.sqrt_le_left hR
      rw [e2]
      constructor
      · intro h
        have hrR : r ≤ R := by
          apply abs_le_of_sq_le_sq' _ hR |>.2
          nlinarith [sq_nonneg z]
        refine ⟨⟨hp1.le, hp2.le⟩, ⟨hr.le, hrR⟩, ?_⟩
        rw [← abs_le, ← Real.sqrt_sq_eq_abs]
        exact Real.sqrt_le_sqrt (by linarith)
      · rintro ⟨-, ⟨-, hrR⟩, hz⟩
        have h2 : 0 ≤ R ^ 2 - r ^ 2 := by nlinarith
        rw [← abs_le, ← Real.sqrt_sq_eq_abs, Real.sqrt_le_sqrt_iff h2] at hz
        linarith)
  rw [key, tplquad]
  have hcont : Continuous fun q : ℝ × ℝ × ℝ => f ![q.2.1 * Real.cos q.1, q.2.1 * Real.sin q.1, q.2.2] := by
    apply hf.comp
    refine continuous_pi fun i => ?_
    fin_cases i <;> simp <;> fun_prop
  have e1 : ∀ p : ℝ, ∫ r in (0 : ℝ)..R, ∫ z in (-Real.sqrt (R ^ 2 - r ^ 2))..(Real.sqrt (R ^ 2 - r ^ 2)),
      r * f ![r * Real.cos p, r * Real.sin p, z] = ∫ r in (0 : ℝ)..R, r ^ 2 * ∫ u in (-1 : ℝ)..1, f (shellMap r (u, p)) := by
    intro p
    have hG : Continuous fun q : ℝ × ℝ => q.1 * f ![q.1 * Real.cos p, q.1 * Real.sin p, q.2] :=
      continuous_fst.mul (hcont.comp (by fun_prop : Continuous fun q : ℝ × ℝ => (p, q.1, q.2)))
    have h1 := halfDisc_cart hR _ hG
    rw [halfDisc_polar hR _ hG] at h1
    refine h1.trans ?_
    congr 1
    funext r
    have hz := zone_int (fun c s => f ![r * c * Real.cos p, r * c * Real.sin p, r * s])
      (by
        change Continuous fun q : ℝ × ℝ => f ![r * q.1 * Real.cos p, r * q.1 * Real.sin p, r * q.2]
        exact hcont.comp (by fun_prop : Continuous fun q : ℝ × ℝ => (p, r * q.1, r * q.2)))
    have e3 : (∫ u in (-1 : ℝ)..1, f (shellMap r (u, p))) = ∫ u in (-1 : ℝ)..1, f ![r * Real.sqrt (1 - u ^ 2) * Real.cos p, r * Real.sqrt (1 - u ^ 2) * Real.sin p, r * u] := rfl
    rw [e3, ← hz, ← intervalIntegral.integral_const_mul]
    congr 1
    funext t
    ring
  simp only [e1]
  have hsh : Continuous fun q : ℝ × ℝ × ℝ => f (shellMap q.1 (q.2.1, q.2.2)) := by
    apply hf.comp
    unfold shellMap
    refine continuous_pi fun i => ?_
    fin_cases i <;> simp <;> fun_prop
  have hin : Continuous fun q : ℝ × ℝ => ∫ u in (-1 : ℝ)..1, f (shellMap q.2 (u, q.1)) := by
    apply intervalIntegral.continuous_parametric_intervalIntegral_of_continuous'
    change Continuous fun w : (ℝ × ℝ) × ℝ => f (shellMap w.1.2 (w.2, w.1.1))
    exact hsh.comp (by fun_prop : Continuous fun w : (ℝ × ℝ) × ℝ => (w.1.2, w.2, w.1.1))
  rw [intervalIntegral_intervalIntegral_swap]
  · congr 1
    funext r
    rw [shellMu_integral r f hf, intervalIntegral.integral_const_mul, smul_eq_mul]
    field_simp
  · have hc : Continuous fun q : ℝ × ℝ => q.2 ^ 2 * ∫ u in (-1 : ℝ)..1, f (shellMap q.2 (u, q.1)) := by fun_prop
    exact (hc.continuousOn.integrableOn_compact (isCompact_uIcc.prod isCompact_uIcc)).mono_set
      (Set.prod_mono Set.uIoc_subset_uIcc Set.uIoc_subset_uIcc)

/-- The mean over the shell depends continuously on the radius. -/
theorem shell_continuous (f : V3 → ℝ) (hf : Continuous f) : Continuous fun r => ∫ v, f v ∂shellMu r := by
  have hsh : Continuous fun q : ℝ × ℝ × ℝ => f (shellMap q.1 (q.2.1, q.2.2)) := by
    apply hf.comp
    unfold shellMap
    refine continuous_pi fun i => ?_
    fin_cases i <;> simp <;> fun_prop
  have hin : Continuous fun q : ℝ × ℝ => ∫ u in (-1 : ℝ)..1, f (shellMap q.1 (u, q.2)) := by
    apply intervalIntegral.continuous_parametric_intervalIntegral_of_continuous'
    change Continuous fun w : (ℝ × ℝ) × ℝ => f (shellMap w.1.1 (w.2, w.1.2))
    exact hsh.comp (by fun_prop : Continuous fun w : (ℝ × ℝ) × ℝ => (w.1.1, w.2, w.1.2))
  have h2 : Continuous fun r : ℝ => ∫ φ in (-Real.pi)..Real.pi, ∫ u in (-1 : ℝ)..1, f (shellMap r (u, φ)) := by
    apply intervalIntegral.continuous_parametric_intervalIntegral_of_continuous'
    exact hin
  have e : (fun r => ∫ v, f v ∂shellMu r) = fun r => (1 / (4 * Real.pi)) • ∫ φ in (-Real.pi)..Real.pi, ∫ u in (-1 : ℝ)..1, f (shellMap r (u, φ)) := by
    funext r; exact shellMu_integral r f hf
  rw [e]
  exact h2.const_smul (1 / (4 * Real.pi) : ℝ)

/-- A map of space that preserves volume and all balls preserves the mean over every shell. -/
theorem shell_invariant (T : V3 → V3) (hT : Continuous T) (hball : ∀ R : ℝ, ∀ f : V3 → ℝ, Continuous f → ∫ v in ball R, f (T v) = ∫ v in ball R, f v)
    {r : ℝ} (hr : 0 < r) (f : V3 → ℝ) (hf : Continuous f) : ∫ v, f (T v) ∂shellMu r = ∫ v, f v ∂shellMu r := by
  have hpi := Real.pi_pos
  have hfT := hf.comp hT
  have hc1 : Continuous fun s : ℝ => 4 * Real.pi * s ^ 2 * ∫ v, f (T v) ∂shellMu s :=
    (by fun_prop : Continuous fun s : ℝ => 4 * Real.pi * s ^ 2).mul (shell_continuous _ hfT)
  have hc2 : Continuous fun s : ℝ => 4 * Real.pi * s ^ 2 * ∫ v, f v ∂shellMu s :=
    (by fun_prop : Continuous fun s : ℝ => 4 * Real.pi * s ^ 2).mul (shell_continuous _ hf)
  have d1 := intervalIntegral.integral_hasDerivAt_right (hc1.intervalIntegrable 0 r) (hc1.stronglyMeasurableAtFilter _ _) hc1.continuousAt
  have d2 := intervalIntegral.integral_hasDerivAt_right (hc2.intervalIntegrable 0 r) (hc2.stronglyMeasurableAtFilter _ _) hc2.continuousAt
  have heq : (fun u : ℝ => ∫ s in (0 : ℝ)..u, 4 * Real.pi * s ^ 2 * ∫ v, f (T v) ∂shellMu s) =ᶠ[𝓝 r]
      fun u : ℝ => ∫ s in (0 : ℝ)..u, 4 * Real.pi * s ^ 2 * ∫ v, f v ∂shellMu s := by
    filter_upwards [lt_mem_nhds hr] with u hu
    rw [← ball_shells hu.le f hf, ← ball_shells hu.le (fun v => f (T v)) hfT]
    exact hball u f hf
  have := (d2.congr_of_eventuallyEq heq).unique d1
  have h0 : 4 * Real.pi * r ^ 2 ≠ 0 := by positivity
  exact (mul_left_cancel₀ h0 this).symm

end Newt
