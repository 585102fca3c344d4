import Verif.Proofs.Planar2
import Verif.Model.Qlm
import Mathlib.Analysis.SpecialFunctions.PolarCoord
import Mathlib.MeasureTheory.Integral.IntervalIntegral.Periodic
import Mathlib.RingTheory.RootsOfUnity.Complex

/-! # Planar moments in polar coordinates: sectors and regular polygons -/

namespace Newt

open MeasureTheory Finset Spec

theorem pmf_polar (m k : ℕ) (r phi : ℝ) :
    pmf m k (r * Real.cos phi, r * Real.sin phi)
      = (r : ℂ) ^ (m + 2 * k) * Complex.exp (-Complex.I * m * phi) := by
  have h := pmf_rot2 phi m k (r, 0)
  rw [rot2_apply] at h
  simp only [zero_mul, sub_zero, add_zero] at h
  rw [h]
  simp only [pmf]
  push_cast
  rw [pow_add, pow_mul]; ring

theorem pm_polar (B : Set (ℝ × ℝ)) (hB : IsCompact B) (m k : ℕ) :
    pm B m k = ∫ p in Set.Ioi (0 : ℝ) ×ˢ Set.Ioo (-Real.pi) Real.pi,
      {p : ℝ × ℝ | (p.1 * Real.cos p.2, p.1 * Real.sin p.2) ∈ B}.indicator
        (fun p => (p.1 : ℂ) ^ (m + 2 * k + 1) * Complex.exp (-Complex.I * m * p.2)) p := by
  rw [pm, ← integral_indicator hB.measurableSet, ← integral_comp_polarCoord_symm]
  apply integral_congr_ae
  refine Filter.Eventually.of_forall fun p => ?_
  simp only [polarCoord_symm_apply]
  by_cases h : (p.1 * Real.cos p.2, p.1 * Real.sin p.2) ∈ B
  · have h' : p ∈ {p : ℝ × ℝ | (p.1 * Real.cos p.2, p.1 * Real.sin p.2) ∈ B} := h
    rw [Set.indicator_of_mem h, Set.indicator_of_mem h', pmf_polar, Complex.real_smul]; ring
  · have h' : p ∉ {p : ℝ × ℝ | (p.1 * Real.cos p.2, p.1 * Real.sin p.2) ∈ B} := h
    rw [Set.indicator_of_notMem h, Set.indicator_of_notMem h', smul_zero]

/-! ## Sectors -/

theorem sector_rotated (Ri Ro phic phih : ℝ) :
    sector Ri Ro phic phih = rotated phic (sector Ri Ro 0 phih) := by
  ext p
  simp only [sector, rotated, Set.mem_setOf_eq]
  constructor
  · rintro ⟨r, phi, h1, h2, h3, h4, h5, h6⟩
    refine ⟨(r * Real.cos (phi - phic), r * Real.sin (phi - phic)),
      ⟨r, phi - phic, h1, h2, by linarith, by linarith, rfl, rfl⟩, ?_, ?_⟩
    · rw [h5]; simp only
      have := Real.cos_add (phi - phic) phic
      rw [sub_add_cancel] at this; rw [this]; ring
    · rw [h6]; simp only
      have := Real.sin_add (phi - phic) phic
      rw [sub_add_cancel] at this; rw [this]; ring
  · rintro ⟨b, ⟨r, phi, h1, h2, h3, h4, h5, h6⟩, h7, h8⟩
    refine ⟨r, phi + phic, h1, h2, by linarith, by linarith, ?_, ?_⟩
    · rw [h7, h5, h6, Real.cos_add]; ring
    · rw [h8, h5, h6, Real.sin_add]; ring

theorem sector_compact (Ri Ro phic phih : ℝ) : IsCompact (sector Ri Ro phic phih) := by
  have : IsCompact ((fun q : ℝ × ℝ => ((q.1 * Real.cos q.2, q.1 * Real.sin q.2) : ℝ × ℝ)) ''
      (Set.Icc Ri Ro ×ˢ Set.Icc (phic - phih) (phic + phih))) :=
    (isCompact_Icc.prod isCompact_Icc).image (by fun_prop)
  convert this using 1
  ext ⟨x, y⟩
  simp only [sector, Set.mem_setOf_eq, Set.mem_image, Set.mem_prod, Set.mem_Icc, Prod.exists,
    Prod.mk.injEq]
  constructor
  · rintro ⟨r, phi, h1, h2, h3, h4, h5, h6⟩
    exact ⟨r, phi, ⟨⟨h1, h2⟩, h3, h4⟩, h5.symm, h6.symm⟩
  · rintro ⟨r, phi, ⟨⟨h1, h2⟩, h3, h4⟩, h5, h6⟩
    exact ⟨r, phi, h1, h2, h3, h4, h5.symm, h6.symm⟩

theorem polar_unique (r r' phi phi' : ℝ) (hr : 0 < r) (hr' : 0 ≤ r') (h1 : -Real.pi < phi)
    (h2 : phi < Real.pi) (h3 : -Real.pi ≤ phi') (h4 : phi' ≤ Real.pi)
    (hc : r * Real.cos phi = r' * Real.cos phi') (hs : r * Real.sin phi = r' * Real.sin phi') :
    r = r' ∧ phi = phi' := by
  have hrr : r = r' := by
    have : r ^ 2 = r' ^ 2 := by
      have e1 := Real.sin_sq_add_cos_sq phi
      have e2 := Real.sin_sq_add_cos_sq phi'
      have : (r * Real.cos phi) ^ 2 + (r * Real.sin phi) ^ 2
          = (r' * Real.cos phi') ^ 2 + (r' * Real.sin phi') ^ 2 := by rw [hc, hs]
      nlinarith
    exact (pow_left_inj₀ hr.le hr' two_ne_zero).1 this
  subst hrr
  refine ⟨rfl, ?_⟩
  have hc' := mul_left_cancel₀ hr.ne' hc
  have hs' := mul_left_cancel₀ hr.ne' hs
  have habs : |phi| = |phi'| := by
    apply Real.injOn_cos
    · exact ⟨abs_nonneg _, abs_le.2 ⟨h1.le, h2.le⟩⟩
    · exact ⟨abs_nonneg _, abs_le.2 ⟨h3, h4⟩⟩
    · rw [Real.cos_abs, Real.cos_abs, hc']
  rcases abs_eq_abs.1 habs with h | h
  · exact h
  · rw [h, Real.sin_neg] at hs'
    have hs0 : Real.sin phi' = 0 := by linarith
    have : Real.sin phi = 0 := by rw [h, Real.sin_neg, hs0, neg_zero]
    have h0 : phi = 0 := (Real.sin_eq_zero_iff_of_lt_of_lt h1 h2).1 this
    rw [h0] at h ⊢; linarith

theorem mem_sector (Ri Ro phih : ℝ) (hRi : 0 ≤ Ri) (hh : phih ≤ Real.pi) (r phi : ℝ) (hr : 0 < r)
    (h1 : -Real.pi < phi) (h2 : phi < Real.pi) :
    (r * Real.cos phi, r * Real.sin phi) ∈ sector Ri Ro 0 phih
      ↔ (r, phi) ∈ Set.Icc Ri Ro ×ˢ Set.Icc (-phih) phih := by
  constructor
  · rintro ⟨r', phi', h3, h4, h5, h6, h7, h8⟩
    obtain ⟨rfl, rfl⟩ := polar_unique r r' phi phi' hr (by linarith) h1 h2 (by linarith) (by linarith) h7 h8
    exact ⟨⟨h3, h4⟩, by show -phih ≤ phi; linarith, by show phi ≤ phih; linarith⟩
  · rintro ⟨⟨h3, h4⟩, h5, h6⟩
    exact ⟨r, phi, h3, h4, by simpa using h5, by simpa using h6, rfl, rfl⟩

theorem ae_sandwich (a b : ℝ) (S : Set ℝ) (h1 : Set.Ioo a b ⊆ S) (h2 : S ⊆ Set.Icc a b) :
    S =ᵐ[volume] Set.Ioc a b := by
  have e1 : Set.Ioo a b =ᵐ[volume] Set.Ioc a b := Ioo_ae_eq_Ioc
  have e2 : Set.Icc a b =ᵐ[volume] Set.Ioc a b := Ioc_ae_eq_Icc.symm
  exact Filter.EventuallyLE.antisymm
    ((HasSubset.Subset.eventuallyLE h2).trans e2.le)
    (e1.symm.le.trans (HasSubset.Subset.eventuallyLE h1))

theorem int_exp (m : ℕ) (h : ℝ) :
    ∫ phi in (-h)..h, Complex.exp (-Complex.I * m * phi) = ((2 * h * Qlm.sinc (m * h) : ℝ) : ℂ) := by
  by_cases hm : m = 0
  · subst hm; simp [Qlm.sinc]; ring
  · have hm' : (m : ℝ) ≠ 0 := by exact_mod_cast hm
    have hc : (-Complex.I * m : ℂ) ≠ 0 := by
      simp [hm]
    rw [integral_exp_mul_complex hc]
    by_cases hh : h = 0
    · subst hh; simp [Qlm.sinc]
    · rw [Qlm.sinc, if_neg (by positivity)]
      have e : Complex.exp (-Complex.I * m * h) - Complex.exp (-Complex.I * m * ((-h : ℝ) : ℂ))
          = -2 * Complex.I * Complex.sin (m * h) := by
        rw [Complex.sin]
        push_cast
        rw [show -Complex.I * m * (h : ℂ) = -(m * h) * Complex.I by ring,
          show -Complex.I * m * -(h : ℂ) = m * h * Complex.I by ring]
        linear_combination (Complex.exp (-(m * h) * Complex.I) - Complex.exp (m * h * Complex.I))
          * Complex.I_sq
      rw [e]
      have hmc : (m : ℂ) ≠ 0 := by exact_mod_cast hm
      have hhc : (h : ℂ) ≠ 0 := by exact_mod_cast hh
      push_cast
      field_simp

theorem pm_sector0 (Ri Ro phih : ℝ) (hRi : 0 ≤ Ri) (hRo : Ri ≤ Ro) (h0 : 0 ≤ phih)
    (hh : phih ≤ Real.pi) (m k : ℕ) :
    pm (sector Ri Ro 0 phih) m k
      = (((Ro ^ (m + 2 * k + 2) - Ri ^ (m + 2 * k + 2)) / ((m + 2 * k : ℕ) + 2) : ℝ) : ℂ)
        * ((2 * phih * Qlm.sinc (m * phih) : ℝ) : ℂ) := by
  rw [pm_polar _ (sector_compact _ _ _ _)]
  have h1 : ∫ p in Set.Ioi (0 : ℝ) ×ˢ Set.Ioo (-Real.pi) Real.pi,
      {p : ℝ × ℝ | (p.1 * Real.cos p.2, p.1 * Real.sin p.2) ∈ sector Ri Ro 0 phih}.indicator
        (fun p => (p.1 : ℂ) ^ (m + 2 * k + 1) * Complex.exp (-Complex.I * m * p.2)) p
      = ∫ p in Set.Ioi (0 : ℝ) ×ˢ Set.Ioo (-Real.pi) Real.pi,
        (Set.Icc Ri Ro ×ˢ Set.Icc (-phih) phih).indicator
        (fun p => (p.1 : ℂ) ^ (m + 2 * k + 1) * Complex.exp (-Complex.I * m * p.2)) p := by
    apply setIntegral_congr_fun (measurableSet_Ioi.prod measurableSet_Ioo)
    rintro ⟨r, phi⟩ ⟨hr, hphi⟩
    have hiff := mem_sector Ri Ro phih hRi hh r phi hr hphi.1 hphi.2
    by_cases h : (r, phi) ∈ Set.Icc Ri Ro ×ˢ Set.Icc (-phih) phih
    · have h' : (r, phi) ∈ {p : ℝ × ℝ | (p.1 * Real.cos p.2, p.1 * Real.sin p.2) ∈ sector Ri Ro 0 phih} :=
        hiff.2 h
      simp only [Set.indicator_of_mem h, Set.indicator_of_mem h']
    · have h' : (r, phi) ∉ {p : ℝ × ℝ | (p.1 * Real.cos p.2, p.1 * Real.sin p.2) ∈ sector Ri Ro 0 phih} :=
        fun hc => h (hiff.1 hc)
      simp only [Set.indicator_of_notMem h, Set.indicator_of_notMem h']
  rw [h1, setIntegral_indicator (measurableSet_Icc.prod measurableSet_Icc), Set.prod_inter_prod]
  have h2 := setIntegral_prod_mul (μ := (volume : Measure ℝ)) (ν := (volume : Measure ℝ))
    (fun r : ℝ => (r : ℂ) ^ (m + 2 * k + 1)) (fun phi : ℝ => Complex.exp (-Complex.I * m * phi))
    (Set.Ioi (0 : ℝ) ∩ Set.Icc Ri Ro) (Set.Ioo (-Real.pi) Real.pi ∩ Set.Icc (-phih) phih)
  rw [← Measure.volume_eq_prod] at h2
  rw [h2]
  congr 1
  · rw [setIntegral_congr_set (ae_sandwich Ri Ro _ ?_ Set.inter_subset_right),
      ← intervalIntegral.integral_of_le hRo]
    · have : ∀ r : ℝ, (r : ℂ) ^ (m + 2 * k + 1) = ((r ^ (m + 2 * k + 1) : ℝ) : ℂ) := by
        intro r; push_cast; rfl
      simp_rw [this]
      rw [intervalIntegral.integral_ofReal, integral_pow]
      push_cast; ring
    · intro r hr; exact ⟨lt_of_le_of_lt hRi hr.1, hr.1.le, hr.2.le⟩
  · rw [setIntegral_congr_set (ae_sandwich (-phih) phih _ ?_ Set.inter_subset_right),
      ← intervalIntegral.integral_of_le (by linarith), int_exp]
    intro r hr
    exact ⟨⟨by have := hr.1; linarith, by have := hr.2; linarith⟩, hr.1.le, hr.2.le⟩

theorem pm_sector (Ri Ro phic phih : ℝ) (hRi : 0 ≤ Ri) (hRo : Ri ≤ Ro) (h0 : 0 ≤ phih)
    (hh : phih ≤ Real.pi) (m k : ℕ) :
    pm (sector Ri Ro phic phih) m k
      = Qlm.phase m phic * ((((Ro ^ (m + 2 * k + 2) - Ri ^ (m + 2 * k + 2)) / ((m + 2 * k : ℕ) + 2) : ℝ) : ℂ)
        * ((2 * phih * Qlm.sinc (m * phih) : ℝ) : ℂ)) := by
  rw [sector_rotated, pm_rotated, pm_sector0 Ri Ro phih hRi hRo h0 hh, Qlm.phase]

end Newt
