import Verif.Proofs.SolidInt
import Verif.Proofs.PlanarPolar
import Verif.Model.QlmNum
import Verif.Spec.SolidsNum

/-! # Volume integrals as iterated integrals in cylindrical and Cartesian coordinates -/

namespace Newt

open MeasureTheory Spec

theorem cyl_symm_apply (p : ℝ × (ℝ × ℝ)) : cyl.symm p = ![p.2.1, p.2.2, p.1] := by
  apply cyl.injective
  rw [cyl.apply_symm_apply, cyl_apply]
  rfl

theorem measurable_mk3 : Measurable fun p : ℝ × (ℝ × ℝ) => (![p.2.1, p.2.2, p.1] : V3) := by
  have h := cyl.symm.measurable
  have e : (cyl.symm : ℝ × (ℝ × ℝ) → V3) = fun p => ![p.2.1, p.2.2, p.1] := funext cyl_symm_apply
  rwa [e] at h

/-- Integrate over `z` first. -/
theorem integral_z_first (S : Set V3) (hS : MeasurableSet S) (g : V3 → ℝ) (hg : IntegrableOn g S) :
    ∫ v in S, g v = ∫ p : ℝ × ℝ, ∫ z : ℝ, S.indicator g ![p.1, p.2, z] := by
  rw [← integral_indicator hS]
  have h := cyl_mp.symm.integral_comp cyl.symm.measurableEmbedding (S.indicator g)
  rw [← h]
  simp only [cyl_symm_apply]
  have hi : Integrable (fun p : ℝ × (ℝ × ℝ) => S.indicator g ![p.2.1, p.2.2, p.1])
      ((volume : Measure ℝ).prod (volume : Measure (ℝ × ℝ))) := by
    have := (cyl_mp.symm.integrable_comp_emb cyl.symm.measurableEmbedding).2
      ((integrable_indicator_iff hS).2 hg)
    refine this.congr (Filter.Eventually.of_forall fun p => ?_)
    simp only [Function.comp, cyl_symm_apply]
  rw [Measure.volume_eq_prod, integral_prod_symm _ hi]

/-- The section integral over an interval. -/
theorem integral_section (q s : ℝ) (hqs : q ≤ s) (P : ℝ → Prop) (hP : ∀ z, P z ↔ q ≤ z ∧ z ≤ s) (f : ℝ → ℝ)
    (F : ℝ → ℝ) (hF : ∀ z, P z → F z = f z) (hF0 : ∀ z, ¬ P z → F z = 0) :
    ∫ z, F z = ∫ z in q..s, f z := by
  rw [intervalIntegral.integral_of_le hqs, ← integral_Icc_eq_integral_Ioc, ← integral_indicator measurableSet_Icc]
  congr 1
  funext z
  by_cases h : z ∈ Set.Icc q s
  · rw [Set.indicator_of_mem h, hF z ((hP z).2 h)]
  · rw [Set.indicator_of_notMem h, hF0 z (fun hc => h ((hP z).1 hc))]

/-- Cartesian coordinates: `∫_S g` as `tplquad`. -/
theorem integral_cart (S : Set V3) (hS : MeasurableSet S) (g : V3 → ℝ) (hg : IntegrableOn g S)
    (a b : ℝ) (hab : a ≤ b) (c d : ℝ → ℝ) (q s : ℝ → ℝ → ℝ)
    (hcd : ∀ x, a ≤ x → x ≤ b → c x ≤ d x)
    (hqs : ∀ x y, a ≤ x → x ≤ b → c x ≤ y → y ≤ d x → q x y ≤ s x y)
    (hiff : ∀ x y z, ![x, y, z] ∈ S ↔ (a ≤ x ∧ x ≤ b) ∧ (c x ≤ y ∧ y ≤ d x) ∧ (q x y ≤ z ∧ z ≤ s x y)) :
    ∫ v in S, g v = tplquad (fun z y x => g ![x, y, z]) a b c d q s := by
  rw [integral_z_first S hS g hg]
  have hi : Integrable (fun p : ℝ × ℝ => ∫ z : ℝ, S.indicator g ![p.1, p.2, z])
      ((volume : Measure ℝ).prod (volume : Measure ℝ)) := by
    have h0 := (cyl_mp.symm.integrable_comp_emb cyl.symm.measurableEmbedding).2
      ((integrable_indicator_iff hS).2 hg)
    have h1 : Integrable (fun p : ℝ × (ℝ × ℝ) => S.indicator g ![p.2.1, p.2.2, p.1])
        ((volume : Measure ℝ).prod (volume : Measure (ℝ × ℝ))) := by
      refine h0.congr (Filter.Eventually.of_forall fun p => ?_)
      simp only [Function.comp, cyl_symm_apply]
    exact h1.integral_prod_right
  rw [Measure.volume_eq_prod, integral_prod _ hi, tplquad]
  refine integral_section a b hab (fun x => a ≤ x ∧ x ≤ b) (fun _ => Iff.rfl) _ _ ?_ ?_
  · intro x hx
    refine integral_section (c x) (d x) (hcd x hx.1 hx.2) (fun y => c x ≤ y ∧ y ≤ d x) (fun _ => Iff.rfl) _ _ ?_ ?_
    · intro y hy
      refine integral_section (q x y) (s x y) (hqs x y hx.1 hx.2 hy.1 hy.2) (fun z => ![x, y, z] ∈ S) ?_ _ _ ?_ ?_
      · intro z; rw [hiff]; exact ⟨fun h => h.2.2, fun h => ⟨hx, hy, h⟩⟩
      · intro z hz; exact Set.indicator_of_mem hz _
      · intro z hz; exact Set.indicator_of_notMem hz _
    · intro y hy
      have : ∀ z, S.indicator g ![x, y, z] = 0 := fun z =>
        Set.indicator_of_notMem (fun hc => hy ((hiff x y z).1 hc).2.1) _
      simp [this]
  · intro x hx
    have : ∀ y z, S.indicator g ![x, y, z] = 0 := fun y z =>
      Set.indicator_of_notMem (fun hc => hx ((hiff x y z).1 hc).1) _
    simp [this]

theorem integral_section_Ioo (q s : ℝ) (hqs : q ≤ s) (f F : ℝ → ℝ) (hF : ∀ z, q < z → z < s → F z = f z)
    (hF0 : ∀ z, z < q ∨ s < z → F z = 0) : ∫ z, F z = ∫ z in q..s, f z := by
  rw [intervalIntegral.integral_of_le hqs, integral_Ioc_eq_integral_Ioo, ← integral_indicator measurableSet_Ioo]
  apply integral_congr_ae
  have hn : ∀ᵐ z : ℝ, z ∉ ({q, s} : Set ℝ) :=
    measure_eq_zero_iff_ae_notMem.1 ((Set.toFinite _).measure_zero _)
  filter_upwards [hn] with z hz
  have h1 : z ≠ q := fun h => hz (by simp [h])
  have h2 : z ≠ s := fun h => hz (by simp [h])
  by_cases h : z ∈ Set.Ioo q s
  · rw [Set.indicator_of_mem h, hF z h.1 h.2]
  · rw [Set.indicator_of_notMem h, hF0 z]
    by_contra hc
    push Not at hc
    exact h ⟨lt_of_le_of_ne hc.1 (Ne.symm h1), lt_of_le_of_ne hc.2 h2⟩

theorem box_volume_lt_top (Rm Zm : ℝ) (hRm : 0 ≤ Rm) :
    volume {v : V3 | v 0 ^ 2 + v 1 ^ 2 ≤ Rm ^ 2 ∧ |v 2| ≤ Zm} < ⊤ := by
  have hsub : {v : V3 | v 0 ^ 2 + v 1 ^ 2 ≤ Rm ^ 2 ∧ |v 2| ≤ Zm} ⊆ Set.Icc ![-Rm, -Rm, -Zm] ![Rm, Rm, Zm] := by
    rintro v ⟨h1, h2⟩
    have a0 := abs_le_of_sq_le_sq' (a := v 0) (b := Rm) (by nlinarith [sq_nonneg (v 1)]) hRm
    have a1 := abs_le_of_sq_le_sq' (a := v 1) (b := Rm) (by nlinarith [sq_nonneg (v 0)]) hRm
    have a2 := abs_le.1 h2
    constructor <;> intro i <;> fin_cases i <;> simp [a0.1, a0.2, a1.1, a1.2, a2.1, a2.2]
  exact lt_of_le_of_lt (measure_mono hsub) isCompact_Icc.measure_lt_top

/-- Cylindrical coordinates: `∫_S g` as `tplquad` of `r g`. -/
theorem integral_cylindrical (S : Set V3) (hS : MeasurableSet S) (g : V3 → ℝ) (hgm : Measurable g)
    (Rm Zm C : ℝ) (hC0 : 0 ≤ C) (hC : ∀ v ∈ S, |g v| ≤ C) (hbd : S ⊆ {v | v 0 ^ 2 + v 1 ^ 2 ≤ Rm ^ 2 ∧ |v 2| ≤ Zm})
    (hRm : 0 ≤ Rm) (hZm : 0 ≤ Zm)
    (phih : ℝ) (h0 : 0 ≤ phih) (hpi : phih ≤ Real.pi) (a b : ℝ → ℝ) (q s : ℝ → ℝ → ℝ)
    (ha : ∀ t, -phih ≤ t → t ≤ phih → 0 ≤ a t)
    (hab : ∀ t, -phih ≤ t → t ≤ phih → a t ≤ b t)
    (hqs : ∀ t r, -phih ≤ t → t ≤ phih → a t ≤ r → r ≤ b t → q t r ≤ s t r)
    (hiff : ∀ t r z, 0 < r → -Real.pi < t → t < Real.pi → (![r * Real.cos t, r * Real.sin t, z] ∈ S ↔
      (-phih ≤ t ∧ t ≤ phih) ∧ (a t ≤ r ∧ r ≤ b t) ∧ (q t r ≤ z ∧ z ≤ s t r))) :
    ∫ v in S, g v
      = tplquad (fun z r t => r * g ![r * Real.cos t, r * Real.sin t, z]) (-phih) phih a b q s := by
  have hvol : volume S < ⊤ := lt_of_le_of_lt (measure_mono hbd) (box_volume_lt_top Rm Zm hRm)
  have hgi : IntegrableOn g S := by
    refine Measure.integrableOn_of_bounded (M := C) hvol.ne hgm.aestronglyMeasurable ?_
    exact (ae_restrict_iff' hS).2 (Filter.Eventually.of_forall fun v hv => by
      rw [Real.norm_eq_abs]; exact hC v hv)
  rw [integral_z_first S hS g hgi, ← integral_comp_polarCoord_symm]
  simp only [polarCoord_symm_apply, polarCoord_target, smul_eq_mul]
  set J : ℝ × ℝ → ℝ := fun p => p.1 * ∫ z, S.indicator g ![p.1 * Real.cos p.2, p.1 * Real.sin p.2, z] with hJ
  have hT : MeasurableSet (Set.Ioi (0 : ℝ) ×ˢ Set.Ioo (-Real.pi) Real.pi) :=
    measurableSet_Ioi.prod measurableSet_Ioo
  have hJm : StronglyMeasurable J := by
    apply Measurable.stronglyMeasurable
    apply measurable_fst.mul
    have hm : Measurable fun w : (ℝ × ℝ) × ℝ =>
        S.indicator g (![w.1.1 * Real.cos w.1.2, w.1.1 * Real.sin w.1.2, w.2] : V3) := by
      have h1 : Measurable fun w : (ℝ × ℝ) × ℝ =>
          ((w.2, (w.1.1 * Real.cos w.1.2, w.1.1 * Real.sin w.1.2)) : ℝ × (ℝ × ℝ)) := by fun_prop
      exact (hgm.indicator hS).comp (measurable_mk3.comp h1)
    exact (hm.stronglyMeasurable.integral_prod_right (ν := (volume : Measure ℝ))).measurable
  have hin : ∀ r t z : ℝ, (![r * Real.cos t, r * Real.sin t, z] : V3) ∈ S → r ^ 2 ≤ Rm ^ 2 ∧ |z| ≤ Zm := by
    intro r t z h
    have h1 := hbd h
    have h2 : (r * Real.cos t) ^ 2 + (r * Real.sin t) ^ 2 ≤ Rm ^ 2 := h1.1
    have h3 : |z| ≤ Zm := h1.2
    have e := Real.sin_sq_add_cos_sq t
    exact ⟨by nlinarith, h3⟩
  have hJz : ∀ r t : ℝ, 0 < r → Rm < r → J (r, t) = 0 := by
    intro r t hr h
    have : ∀ z : ℝ, S.indicator g (![r * Real.cos t, r * Real.sin t, z] : V3) = 0 := fun z =>
      Set.indicator_of_notMem (fun hc => by
        have := (hin r t z hc).1
        nlinarith) _
    simp [hJ, this]
  have hInt : IntegrableOn J (Set.Ioi (0 : ℝ) ×ˢ Set.Ioo (-Real.pi) Real.pi)
      ((volume : Measure ℝ).prod (volume : Measure ℝ)) := by
    have hsmall : IntegrableOn J (Set.Ioc (0 : ℝ) Rm ×ˢ Set.Ioo (-Real.pi) Real.pi)
        ((volume : Measure ℝ).prod (volume : Measure ℝ)) := by
      refine Measure.integrableOn_of_bounded (M := Rm * (C * (2 * Zm))) ?_ hJm.aestronglyMeasurable ?_
      · rw [Measure.prod_prod]
        exact (ENNReal.mul_lt_top (by simp) (by simp)).ne
      · refine (ae_restrict_iff' (measurableSet_Ioc.prod measurableSet_Ioo)).2
          (Filter.Eventually.of_forall ?_)
        rintro ⟨r, t⟩ ⟨⟨hr1, hr2⟩, -⟩
        simp only at hr1 hr2
        rw [hJ]
        simp only [norm_mul, Real.norm_eq_abs, abs_of_pos hr1]
        have hb : |∫ z, S.indicator g (![r * Real.cos t, r * Real.sin t, z] : V3)| ≤ C * (2 * Zm) := by
          have e : ∫ z, S.indicator g (![r * Real.cos t, r * Real.sin t, z] : V3)
              = ∫ z in Set.Icc (-Zm) Zm, S.indicator g (![r * Real.cos t, r * Real.sin t, z] : V3) := by
            rw [← integral_indicator measurableSet_Icc]
            congr 1
            funext z
            by_cases hz : z ∈ Set.Icc (-Zm) Zm
            · rw [Set.indicator_of_mem hz]
            · rw [Set.indicator_of_notMem hz, Set.indicator_of_notMem]
              intro hc
              exact hz (abs_le.1 (hin r t z hc).2)
          rw [e, ← Real.norm_eq_abs]
          have hle : ∀ z ∈ Set.Icc (-Zm) Zm,
              ‖S.indicator g (![r * Real.cos t, r * Real.sin t, z] : V3)‖ ≤ max C 0 := by
            intro z _
            by_cases hz : (![r * Real.cos t, r * Real.sin t, z] : V3) ∈ S
            · rw [Set.indicator_of_mem hz, Real.norm_eq_abs]; exact (hC _ hz).trans (le_max_left _ _)
            · rw [Set.indicator_of_notMem hz, norm_zero]; exact le_max_right _ _
          · rw [max_eq_left hC0] at hle
            have := norm_setIntegral_le_of_norm_le_const (μ := volume) (s := Set.Icc (-Zm) Zm)
              (C := C) isCompact_Icc.measure_lt_top hle
            refine this.trans (le_of_eq ?_)
            rw [measureReal_def, Real.volume_Icc, ENNReal.toReal_ofReal (by linarith)]; ring
        exact mul_le_mul hr2 hb (abs_nonneg _) hRm
    have hrest : IntegrableOn J (Set.Ioi Rm ×ˢ Set.Ioo (-Real.pi) Real.pi)
        ((volume : Measure ℝ).prod (volume : Measure ℝ)) := by
      refine (integrableOn_zero (μ := (volume : Measure ℝ).prod (volume : Measure ℝ))).congr_fun ?_
        (measurableSet_Ioi.prod measurableSet_Ioo)
      rintro ⟨r, t⟩ ⟨hr, -⟩
      exact (hJz r t (lt_of_le_of_lt hRm hr) hr).symm
    have hu : Set.Ioi (0 : ℝ) ×ˢ Set.Ioo (-Real.pi) Real.pi
        = (Set.Ioc (0 : ℝ) Rm ×ˢ Set.Ioo (-Real.pi) Real.pi) ∪ (Set.Ioi Rm ×ˢ Set.Ioo (-Real.pi) Real.pi) := by
      rw [← Set.union_prod, Set.Ioc_union_Ioi_eq_Ioi hRm]
    rw [hu]
    exact hsmall.union hrest
  rw [← integral_indicator hT]
  have hI2 : Integrable ((Set.Ioi (0 : ℝ) ×ˢ Set.Ioo (-Real.pi) Real.pi).indicator J)
      ((volume : Measure ℝ).prod (volume : Measure ℝ)) := (integrable_indicator_iff hT).2 hInt
  rw [Measure.volume_eq_prod, integral_prod_symm _ hI2, tplquad]
  refine integral_section_Ioo (-phih) phih (by linarith) _ _ ?_ ?_
  · intro t ht1 ht2
    have htm : t ∈ Set.Ioo (-Real.pi) Real.pi := ⟨by linarith, by linarith⟩
    refine integral_section_Ioo (a t) (b t) (hab t ht1.le ht2.le) _ _ ?_ ?_
    · intro r hr1 hr2
      have hr : 0 < r := lt_of_le_of_lt (ha t ht1.le ht2.le) hr1
      rw [Set.indicator_of_mem (show (r, t) ∈ Set.Ioi (0 : ℝ) ×ˢ Set.Ioo (-Real.pi) Real.pi from ⟨hr, htm⟩), hJ]
      simp only
      rw [intervalIntegral.integral_const_mul]
      congr 1
      refine integral_section (q t r) (s t r) (hqs t r ht1.le ht2.le hr1.le hr2.le)
        (fun z => ![r * Real.cos t, r * Real.sin t, z] ∈ S) ?_ _ _ ?_ ?_
      · intro z
        rw [hiff t r z hr htm.1 htm.2]
        exact ⟨fun h => h.2.2, fun h => ⟨⟨ht1.le, ht2.le⟩, ⟨hr1.le, hr2.le⟩, h⟩⟩
      · intro z hz; exact Set.indicator_of_mem hz _
      · intro z hz; exact Set.indicator_of_notMem hz _
    · intro r hr
      by_cases hr0 : 0 < r
      · rw [Set.indicator_of_mem (show (r, t) ∈ Set.Ioi (0 : ℝ) ×ˢ Set.Ioo (-Real.pi) Real.pi from ⟨hr0, htm⟩), hJ]
        have : ∀ z : ℝ, S.indicator g (![r * Real.cos t, r * Real.sin t, z] : V3) = 0 := fun z =>
          Set.indicator_of_notMem (fun hc => by
            have := ((hiff t r z hr0 htm.1 htm.2).1 hc).2.1
            rcases hr with h | h <;> linarith [this.1, this.2]) _
        simp [this]
      · exact Set.indicator_of_notMem (fun hc => hr0 hc.1) _
  · intro t ht
    have hz : ∀ r : ℝ, (Set.Ioi (0 : ℝ) ×ˢ Set.Ioo (-Real.pi) Real.pi).indicator J (r, t) = 0 := by
      intro r
      by_cases hrt : (r, t) ∈ Set.Ioi (0 : ℝ) ×ˢ Set.Ioo (-Real.pi) Real.pi
      · rw [Set.indicator_of_mem hrt, hJ]
        have : ∀ z : ℝ, S.indicator g (![r * Real.cos t, r * Real.sin t, z] : V3) = 0 := fun z =>
          Set.indicator_of_notMem (fun hc => by
            have := ((hiff t r z hrt.1 hrt.2.1 hrt.2.2).1 hc).1
            rcases ht with h | h <;> linarith [this.1, this.2]) _
        simp [this]
      · exact Set.indicator_of_notMem hrt _
    simp [hz]

end Newt
