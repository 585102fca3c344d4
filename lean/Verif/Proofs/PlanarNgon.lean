import Verif.Proofs.PlanarPolar

/-! # Planar moments of regular polygons -/

namespace Newt

open MeasureTheory Finset Spec

/-- Radial integral of a plane region along the direction `phi`. -/
noncomputable def rad (B : Set (ℝ × ℝ)) (n : ℕ) (phi : ℝ) : ℂ :=
  ∫ r in Set.Ioi (0 : ℝ), {r : ℝ | (r * Real.cos phi, r * Real.sin phi) ∈ B}.indicator
    (fun r => (r : ℂ) ^ (n + 1)) r

theorem polar_measurable (B : Set (ℝ × ℝ)) (hB : MeasurableSet B) :
    MeasurableSet {p : ℝ × ℝ | (p.1 * Real.cos p.2, p.1 * Real.sin p.2) ∈ B} := by
  have : Measurable fun p : ℝ × ℝ => ((p.1 * Real.cos p.2, p.1 * Real.sin p.2) : ℝ × ℝ) :=
    Continuous.measurable (by fun_prop)
  exact this hB

theorem polar_bounded (B : Set (ℝ × ℝ)) (hB : IsCompact B) :
    ∃ R : ℝ, 0 ≤ R ∧ ∀ r phi : ℝ, 0 < r → (r * Real.cos phi, r * Real.sin phi) ∈ B → r ≤ R := by
  obtain ⟨C, hC⟩ := hB.isBounded.exists_norm_le
  refine ⟨|C| + |C|, by positivity, fun r phi hr h => ?_⟩
  have h1 := hC _ h
  rw [Prod.norm_def] at h1
  have h2 : |r * Real.cos phi| ≤ |C| := (le_max_left _ _).trans (h1.trans (le_abs_self C))
  have h3 : |r * Real.sin phi| ≤ |C| := (le_max_right _ _).trans (h1.trans (le_abs_self C))
  rw [abs_mul, abs_of_pos hr] at h2 h3
  have h4 : 1 ≤ |Real.cos phi| + |Real.sin phi| := by
    have := Real.sin_sq_add_cos_sq phi
    have e1 : Real.sin phi ^ 2 ≤ |Real.sin phi| := by
      rw [← sq_abs]; have := abs_nonneg (Real.sin phi); have := Real.abs_sin_le_one phi; nlinarith
    have e2 : Real.cos phi ^ 2 ≤ |Real.cos phi| := by
      rw [← sq_abs]; have := abs_nonneg (Real.cos phi); have := Real.abs_cos_le_one phi; nlinarith
    linarith
  nlinarith

theorem polar_integrable (B : Set (ℝ × ℝ)) (hB : IsCompact B) (n m : ℕ) :
    IntegrableOn ({p : ℝ × ℝ | (p.1 * Real.cos p.2, p.1 * Real.sin p.2) ∈ B}.indicator
        (fun p => (p.1 : ℂ) ^ n * Complex.exp (-Complex.I * m * p.2)))
      (Set.Ioi (0 : ℝ) ×ˢ Set.Ioo (-Real.pi) Real.pi) := by
  obtain ⟨R, hR, hb⟩ := polar_bounded B hB
  set E := {p : ℝ × ℝ | (p.1 * Real.cos p.2, p.1 * Real.sin p.2) ∈ B} with hE
  have hEm := polar_measurable B hB.measurableSet
  rw [IntegrableOn, integrable_indicator_iff hEm, IntegrableOn, Measure.restrict_restrict hEm]
  have hc : IntegrableOn (fun p : ℝ × ℝ => (p.1 : ℂ) ^ n * Complex.exp (-Complex.I * m * p.2))
      (Set.Icc 0 R ×ˢ Set.Icc (-Real.pi) Real.pi) :=
    ContinuousOn.integrableOn_compact (isCompact_Icc.prod isCompact_Icc)
      (Continuous.continuousOn (by fun_prop))
  refine hc.mono_set ?_
  rintro ⟨r, phi⟩ ⟨h1, h2, h3⟩
  exact ⟨⟨le_of_lt h2, hb r phi h2 h1⟩, h3.1.le, h3.2.le⟩

theorem swap_prod_integral (f : ℝ × ℝ → ℂ) (s t : Set ℝ) (hf : IntegrableOn f (s ×ˢ t)) :
    ∫ p in s ×ˢ t, f p = ∫ y in t, ∫ x in s, f (x, y) := by
  rw [Measure.volume_eq_prod] at hf ⊢
  rw [← Measure.prod_restrict, integral_prod_symm]
  rw [Measure.prod_restrict]; exact hf

theorem pm_rad (B : Set (ℝ × ℝ)) (hB : IsCompact B) (m k : ℕ) :
    pm B m k = ∫ phi in (-Real.pi)..Real.pi, Complex.exp (-Complex.I * m * phi) * rad B (m + 2 * k) phi := by
  rw [pm_polar B hB, swap_prod_integral _ _ _ (polar_integrable B hB _ m),
    intervalIntegral.integral_of_le (by have := Real.pi_pos; linarith), integral_Ioc_eq_integral_Ioo]
  refine integral_congr_ae (Filter.Eventually.of_forall fun phi => ?_)
  simp only [rad]
  rw [← integral_const_mul]
  refine integral_congr_ae (Filter.Eventually.of_forall fun r => ?_)
  simp only
  by_cases h : (r * Real.cos phi, r * Real.sin phi) ∈ B
  · have h1 : (r, phi) ∈ {p : ℝ × ℝ | (p.1 * Real.cos p.2, p.1 * Real.sin p.2) ∈ B} := h
    have h2 : r ∈ {r : ℝ | (r * Real.cos phi, r * Real.sin phi) ∈ B} := h
    rw [Set.indicator_of_mem h1, Set.indicator_of_mem h2, mul_comm]
  · have h1 : (r, phi) ∉ {p : ℝ × ℝ | (p.1 * Real.cos p.2, p.1 * Real.sin p.2) ∈ B} := h
    have h2 : r ∉ {r : ℝ | (r * Real.cos phi, r * Real.sin phi) ∈ B} := h
    rw [Set.indicator_of_notMem h1, Set.indicator_of_notMem h2, mul_zero]

theorem rad_integrable (B : Set (ℝ × ℝ)) (hB : IsCompact B) (m n : ℕ) :
    IntervalIntegrable (fun phi : ℝ => Complex.exp (-Complex.I * m * phi) * rad B n phi) volume
      (-Real.pi) Real.pi := by
  have h := polar_integrable B hB (n + 1) m
  rw [IntegrableOn, Measure.volume_eq_prod, ← Measure.prod_restrict] at h
  have h2 := h.integral_prod_right
  rw [intervalIntegrable_iff_integrableOn_Ioo_of_le (by have := Real.pi_pos; linarith)]
  refine h2.congr (Filter.Eventually.of_forall fun phi => ?_)
  simp only [rad]
  rw [← integral_const_mul]
  refine integral_congr_ae (Filter.Eventually.of_forall fun r => ?_)
  simp only
  by_cases h : (r * Real.cos phi, r * Real.sin phi) ∈ B
  · have h1 : (r, phi) ∈ {p : ℝ × ℝ | (p.1 * Real.cos p.2, p.1 * Real.sin p.2) ∈ B} := h
    have h2 : r ∈ {r : ℝ | (r * Real.cos phi, r * Real.sin phi) ∈ B} := h
    rw [Set.indicator_of_mem h1, Set.indicator_of_mem h2, mul_comm]
  · have h1 : (r, phi) ∉ {p : ℝ × ℝ | (p.1 * Real.cos p.2, p.1 * Real.sin p.2) ∈ B} := h
    have h2 : r ∉ {r : ℝ | (r * Real.cos phi, r * Real.sin phi) ∈ B} := h
    rw [Set.indicator_of_notMem h1, Set.indicator_of_notMem h2, mul_zero]

/-! ## The polygon -/

/-- The apothem. -/
noncomputable def apo (N : ℕ) (a : ℝ) : ℝ := a / (2 * Real.tan (Real.pi / N))

section
variable {N : ℕ} (hN : 3 ≤ N)
include hN

theorem piN_pos : 0 < Real.pi / N := by
  have : (0 : ℝ) < N := by exact_mod_cast (by omega : 0 < N)
  have := Real.pi_pos; positivity

theorem piN_lt : Real.pi / N < Real.pi / 2 := by
  have h : (3 : ℝ) ≤ N := by exact_mod_cast hN
  have := Real.pi_pos
  rw [div_lt_div_iff_of_pos_left this (by linarith) (by norm_num)]; linarith

theorem tanN_pos : 0 < Real.tan (Real.pi / N) := Real.tan_pos_of_pos_of_lt_pi_div_two (piN_pos hN) (piN_lt hN)

theorem cosN_pos : 0 < Real.cos (Real.pi / N) :=
  Real.cos_pos_of_mem_Ioo ⟨by have := piN_pos hN; have := Real.pi_pos; linarith, piN_lt hN⟩

theorem apo_pos {a : ℝ} (ha : 0 < a) : 0 < apo N a := by
  have := tanN_pos hN; rw [apo]; positivity

omit hN in
theorem polygon_polar (a r phi : ℝ) :
    (r * Real.cos phi, r * Real.sin phi) ∈ regularPolygon N a 0 ↔
      ∀ j < N, r * Real.cos (phi - 2 * Real.pi * j / N) ≤ apo N a := by
  simp only [regularPolygon, Set.mem_setOf_eq, zero_add, apo]
  refine forall₂_congr fun j _ => ?_
  rw [Real.cos_sub]
  constructor <;> intro h <;> linarith

theorem polygon_polar_int (a r phi : ℝ) :
    (r * Real.cos phi, r * Real.sin phi) ∈ regularPolygon N a 0 ↔
      ∀ j : ℤ, r * Real.cos (phi - 2 * Real.pi * j / N) ≤ apo N a := by
  rw [polygon_polar]
  have hN0 : (N : ℝ) ≠ 0 := by exact_mod_cast (by omega : N ≠ 0)
  constructor
  · intro h j
    have hj := Int.emod_add_mul_ediv j N
    have h1 : 0 ≤ j % N := Int.emod_nonneg _ (by omega)
    have h2 : j % N < N := Int.emod_lt_of_pos _ (by omega)
    have h3 := h (j % N).toNat (by omega)
    have h4 : (((j % N).toNat : ℕ) : ℝ) = ((j % N : ℤ) : ℝ) := by
      rw [← Int.cast_natCast, Int.toNat_of_nonneg h1]
    rw [h4] at h3
    have h5 : phi - 2 * Real.pi * (j : ℝ) / N
        = (phi - 2 * Real.pi * ((j % N : ℤ) : ℝ) / N) - (j / N : ℤ) * (2 * Real.pi) := by
      have : (j : ℝ) = ((j % N : ℤ) : ℝ) + N * ((j / N : ℤ) : ℝ) := by exact_mod_cast hj.symm
      rw [this]; field_simp; ring
    rw [h5, Real.cos_sub_int_mul_two_pi]; exact h3
  · intro h j _
    exact_mod_cast h j

theorem rad_polygon_periodic (a : ℝ) (n : ℕ) (phi : ℝ) :
    rad (regularPolygon N a 0) n (phi + 2 * Real.pi / N) = rad (regularPolygon N a 0) n phi := by
  have hN0 : (N : ℝ) ≠ 0 := by exact_mod_cast (by omega : N ≠ 0)
  have : {r : ℝ | (r * Real.cos (phi + 2 * Real.pi / N), r * Real.sin (phi + 2 * Real.pi / N))
      ∈ regularPolygon N a 0} = {r : ℝ | (r * Real.cos phi, r * Real.sin phi) ∈ regularPolygon N a 0} := by
    ext r
    simp only [Set.mem_setOf_eq]
    rw [polygon_polar_int hN, polygon_polar_int hN]
    constructor
    · intro h j
      have := h (j + 1)
      rw [show phi + 2 * Real.pi / N - 2 * Real.pi * ((j + 1 : ℤ) : ℝ) / N
        = phi - 2 * Real.pi * j / N by push_cast; field_simp; ring] at this
      exact this
    · intro h j
      have := h (j - 1)
      rw [show phi - 2 * Real.pi * ((j - 1 : ℤ) : ℝ) / N
        = phi + 2 * Real.pi / N - 2 * Real.pi * j / N by push_cast; field_simp; ring] at this
      exact this
  rw [rad, rad, this]

theorem cos_le_cos_shift (phi : ℝ) (h1 : -(Real.pi / N) ≤ phi) (h2 : phi ≤ Real.pi / N) (j : ℕ) (hj : j < N) :
    Real.cos (phi - 2 * Real.pi * j / N) ≤ Real.cos phi := by
  have hN0 : (0 : ℝ) < N := by exact_mod_cast (by omega : 0 < N)
  have hpi := Real.pi_pos
  rcases Nat.eq_zero_or_pos j with rfl | hj0
  · simp
  have e := Real.cos_sub_cos (phi - 2 * Real.pi * j / N) phi
  have s1 : 0 ≤ Real.sin (Real.pi * j / N) := by
    apply Real.sin_nonneg_of_nonneg_of_le_pi
    · positivity
    · rw [div_le_iff₀ hN0]
      have : (j : ℝ) ≤ N := by exact_mod_cast hj.le
      nlinarith
  have s2 : Real.sin (phi - Real.pi * j / N) ≤ 0 := by
    apply Real.sin_nonpos_of_nonpos_of_neg_pi_le
    · have : Real.pi / N ≤ Real.pi * j / N := by
        apply div_le_div_of_nonneg_right _ hN0.le
        have : (1 : ℝ) ≤ j := by exact_mod_cast hj0
        nlinarith
      linarith
    · have : Real.pi * j / N + Real.pi / N ≤ Real.pi := by
        rw [← add_div, div_le_iff₀ hN0]
        have : (j : ℝ) + 1 ≤ N := by exact_mod_cast hj
        nlinarith
      linarith
  rw [show (phi - 2 * Real.pi * j / N + phi) / 2 = phi - Real.pi * j / N by ring,
    show (phi - 2 * Real.pi * j / N - phi) / 2 = -(Real.pi * j / N) by ring, Real.sin_neg] at e
  nlinarith

theorem nearest (psi : ℝ) : ∃ j : ℤ, |psi - 2 * Real.pi * j / N| ≤ Real.pi / N := by
  have hN0 : (0 : ℝ) < N := by exact_mod_cast (by omega : 0 < N)
  have hpi := Real.pi_pos
  refine ⟨round (psi * N / (2 * Real.pi)), ?_⟩
  have h := abs_sub_round (psi * N / (2 * Real.pi))
  have : psi - 2 * Real.pi * (round (psi * N / (2 * Real.pi)) : ℝ) / N
      = (2 * Real.pi / N) * (psi * N / (2 * Real.pi) - round (psi * N / (2 * Real.pi))) := by
    field_simp
  rw [this, abs_mul, abs_of_pos (by positivity)]
  calc _ ≤ (2 * Real.pi / N) * (1 / 2) := by gcongr
    _ = _ := by ring

theorem polygon_compact {a : ℝ} (ha : 0 < a) : IsCompact (regularPolygon N a 0) := by
  have hap := apo_pos hN ha
  have hcos := cosN_pos hN
  refine IsCompact.of_isClosed_subset (isCompact_Icc (a := ((-(apo N a / Real.cos (Real.pi / N)),
    -(apo N a / Real.cos (Real.pi / N))) : ℝ × ℝ)) (b := (apo N a / Real.cos (Real.pi / N),
      apo N a / Real.cos (Real.pi / N)))) ?_ ?_
  · have : regularPolygon N a 0 = ⋂ j ∈ Set.Iio N, {p : ℝ × ℝ |
        p.1 * Real.cos (0 + 2 * Real.pi * j / N) + p.2 * Real.sin (0 + 2 * Real.pi * j / N)
          ≤ a / (2 * Real.tan (Real.pi / N))} := by
      ext p; simp [regularPolygon]
    rw [this]
    exact isClosed_biInter fun j _ => isClosed_le (by fun_prop) continuous_const
  · rintro ⟨x, y⟩ hp
    set z : ℂ := ⟨x, y⟩ with hz
    have hx : ‖z‖ * Real.cos z.arg = x := Complex.norm_mul_cos_arg z
    have hy : ‖z‖ * Real.sin z.arg = y := Complex.norm_mul_sin_arg z
    rw [← hx, ← hy, polygon_polar_int hN] at hp
    obtain ⟨j, hj⟩ := nearest hN z.arg
    have h1 := hp j
    have h2 : Real.cos (Real.pi / N) ≤ Real.cos (z.arg - 2 * Real.pi * j / N) := by
      rw [← Real.cos_abs (z.arg - _)]
      apply Real.cos_le_cos_of_nonneg_of_le_pi (abs_nonneg _) _ hj
      have := piN_lt hN; have := Real.pi_pos; linarith
    have h3 : ‖z‖ ≤ apo N a / Real.cos (Real.pi / N) := by
      rw [le_div_iff₀ hcos]
      exact (mul_le_mul_of_nonneg_left h2 (norm_nonneg z)).trans h1
    have h4 : |x| ≤ ‖z‖ := Complex.abs_re_le_norm z
    have h5 : |y| ≤ ‖z‖ := Complex.abs_im_le_norm z
    have h6 := abs_le.1 (h4.trans h3)
    have h7 := abs_le.1 (h5.trans h3)
    exact ⟨⟨h6.1, h7.1⟩, ⟨h6.2, h7.2⟩⟩

/-- Within its wedge the polygon is the triangle. -/
theorem mem_triangle_polar {a : ℝ} (ha : 0 < a) (r phi : ℝ) (hr : 0 < r) (h1 : -Real.pi < phi)
    (h2 : phi < Real.pi) :
    (r * Real.cos phi, r * Real.sin phi) ∈ triangle (apo N a, -(a / 2)) (apo N a, a / 2) ↔
      |phi| ≤ Real.pi / N ∧ (r * Real.cos phi, r * Real.sin phi) ∈ regularPolygon N a 0 := by
  have hap := apo_pos hN ha
  have hcos := cosN_pos hN
  have htan := tanN_pos hN
  have hsin : 0 < Real.sin (Real.pi / N) :=
    Real.sin_pos_of_pos_of_lt_pi (piN_pos hN) (by have := piN_lt hN; have := Real.pi_pos; linarith)
  have hpN := piN_pos hN
  have hpl := piN_lt hN
  have ha2 : a / 2 = apo N a * (Real.sin (Real.pi / N) / Real.cos (Real.pi / N)) := by
    rw [apo, ← Real.tan_eq_sin_div_cos]; field_simp
  rw [mem_triangle (apo N a) (-(a / 2)) (a / 2) hap (by linarith)]
  constructor
  · rintro ⟨s, hs0, hs1, h3, h4, h5⟩
    have h6 : |r * Real.sin phi| ≤ s * (a / 2) := abs_le.2 ⟨by linarith, h5⟩
    have h7 : |Real.sin phi| = Real.sin |phi| := by
      rcases le_total 0 phi with h | h
      · rw [abs_of_nonneg h, abs_of_nonneg (Real.sin_nonneg_of_nonneg_of_le_pi h h2.le)]
      · rw [abs_of_nonpos h, Real.sin_neg, abs_of_nonpos (Real.sin_nonpos_of_nonpos_of_neg_pi_le h h1.le)]
    have h8 : |phi| ≤ Real.pi / N := by
      by_contra hcon
      push Not at hcon
      have h9 : 0 < Real.sin (|phi| - Real.pi / N) := by
        apply Real.sin_pos_of_pos_of_lt_pi (by linarith)
        have := abs_lt.2 ⟨h1, h2⟩; linarith
      rw [Real.sin_sub, Real.cos_abs, ← h7] at h9
      rw [abs_mul, abs_of_pos hr, ha2] at h6
      have h10 : r * |Real.sin phi| * Real.cos (Real.pi / N) ≤ r * Real.cos phi * Real.sin (Real.pi / N) := by
        rw [h3]
        calc r * |Real.sin phi| * Real.cos (Real.pi / N)
            ≤ s * (apo N a * (Real.sin (Real.pi / N) / Real.cos (Real.pi / N))) * Real.cos (Real.pi / N) := by
              gcongr
          _ = _ := by field_simp
      have h11 : 0 < r * (|Real.sin phi| * Real.cos (Real.pi / N) - Real.cos phi * Real.sin (Real.pi / N)) :=
        mul_pos hr h9
      nlinarith
    refine ⟨h8, (polygon_polar a r phi).2 fun j hj => ?_⟩
    have h9 := abs_le.1 h8
    have := cos_le_cos_shift hN phi h9.1 h9.2 j hj
    calc _ ≤ r * Real.cos phi := by gcongr
      _ = s * apo N a := h3
      _ ≤ apo N a := by nlinarith
  · rintro ⟨h8, h9⟩
    have h10 := (polygon_polar a r phi).1 h9 0 (by omega)
    simp only [Nat.cast_zero, mul_zero, zero_div, sub_zero] at h10
    have hc : 0 < Real.cos phi := by
      rw [← Real.cos_abs]
      apply Real.cos_pos_of_mem_Ioo
      exact ⟨by have := abs_nonneg phi; have := Real.pi_pos; linarith, by linarith⟩
    have h11 : |r * Real.sin phi| ≤ r * Real.cos phi * (Real.sin (Real.pi / N) / Real.cos (Real.pi / N)) := by
      rw [abs_mul, abs_of_pos hr, mul_assoc]
      apply mul_le_mul_of_nonneg_left _ hr.le
      rw [← mul_div_assoc, le_div_iff₀ hcos]
      have h7 : |Real.sin phi| = Real.sin |phi| := by
        rcases le_total 0 phi with h | h
        · rw [abs_of_nonneg h, abs_of_nonneg (Real.sin_nonneg_of_nonneg_of_le_pi h h2.le)]
        · rw [abs_of_nonpos h, Real.sin_neg, abs_of_nonpos (Real.sin_nonpos_of_nonpos_of_neg_pi_le h h1.le)]
      have h12 : Real.sin (|phi| - Real.pi / N) ≤ 0 := by
        apply Real.sin_nonpos_of_nonpos_of_neg_pi_le (by linarith)
        have := abs_nonneg phi; have := Real.pi_pos; linarith
      rw [Real.sin_sub, Real.cos_abs, ← h7] at h12
      linarith
    refine ⟨r * Real.cos phi / apo N a, by positivity, ?_, ?_, ?_, ?_⟩
    · rw [div_le_one hap]; exact h10
    · field_simp
    · have := (abs_le.1 h11).1
      rw [ha2]; field_simp at this ⊢; linarith
    · have := (abs_le.1 h11).2
      rw [ha2]; field_simp at this ⊢; linarith

theorem rad_triangle {a : ℝ} (ha : 0 < a) (n : ℕ) (phi : ℝ) (h1 : -Real.pi < phi) (h2 : phi < Real.pi) :
    rad (triangle (apo N a, -(a / 2)) (apo N a, a / 2)) n phi
      = (Set.Icc (-(Real.pi / N)) (Real.pi / N)).indicator (rad (regularPolygon N a 0) n) phi := by
  by_cases h : |phi| ≤ Real.pi / N
  · rw [Set.indicator_of_mem (show phi ∈ Set.Icc (-(Real.pi / N)) (Real.pi / N) from abs_le.1 h), rad, rad]
    refine setIntegral_congr_fun measurableSet_Ioi fun r hr => ?_
    have hiff := mem_triangle_polar hN ha r phi hr h1 h2
    simp only [h, true_and] at hiff
    by_cases hm : (r * Real.cos phi, r * Real.sin phi) ∈ regularPolygon N a 0
    · have e1 : r ∈ {r : ℝ | (r * Real.cos phi, r * Real.sin phi) ∈ regularPolygon N a 0} := hm
      have e2 : r ∈ {r : ℝ | (r * Real.cos phi, r * Real.sin phi)
        ∈ triangle (apo N a, -(a / 2)) (apo N a, a / 2)} := hiff.2 hm
      simp only [Set.indicator_of_mem e1, Set.indicator_of_mem e2]
    · have e1 : r ∉ {r : ℝ | (r * Real.cos phi, r * Real.sin phi) ∈ regularPolygon N a 0} := hm
      have e2 : r ∉ {r : ℝ | (r * Real.cos phi, r * Real.sin phi)
        ∈ triangle (apo N a, -(a / 2)) (apo N a, a / 2)} := fun h => hm (hiff.1 h)
      simp only [Set.indicator_of_notMem e1, Set.indicator_of_notMem e2]
  · rw [Set.indicator_of_notMem (show phi ∉ Set.Icc (-(Real.pi / N)) (Real.pi / N) from fun hc => h (abs_le.2 hc)), rad]
    rw [setIntegral_congr_fun (g := fun _ => 0) measurableSet_Ioi fun r hr => ?_]
    · simp
    have e2 : r ∉ {r : ℝ | (r * Real.cos phi, r * Real.sin phi)
        ∈ triangle (apo N a, -(a / 2)) (apo N a, a / 2)} :=
      fun hm => h ((mem_triangle_polar hN ha r phi hr h1 h2).1 hm).1
    simp only [Set.indicator_of_notMem e2]

theorem pm_triangle_wedge {a : ℝ} (ha : 0 < a) (m k : ℕ) :
    pm (triangle (apo N a, -(a / 2)) (apo N a, a / 2)) m k
      = ∫ phi in (-(Real.pi / N))..(Real.pi / N), Complex.exp (-Complex.I * m * phi)
          * rad (regularPolygon N a 0) (m + 2 * k) phi := by
  have hpi := Real.pi_pos
  have hpN := piN_pos hN
  have hpl := piN_lt hN
  rw [pm_rad _ (triangle_compact _ _), intervalIntegral.integral_of_le (by linarith),
    integral_Ioc_eq_integral_Ioo, intervalIntegral.integral_of_le (by linarith),
    ← integral_Icc_eq_integral_Ioc]
  have : ∀ phi ∈ Set.Ioo (-Real.pi) Real.pi, Complex.exp (-Complex.I * m * phi)
      * rad (triangle (apo N a, -(a / 2)) (apo N a, a / 2)) (m + 2 * k) phi
      = (Set.Icc (-(Real.pi / N)) (Real.pi / N)).indicator (fun phi : ℝ =>
        Complex.exp (-Complex.I * m * phi) * rad (regularPolygon N a 0) (m + 2 * k) phi) phi := by
    intro phi hphi
    rw [rad_triangle hN ha _ phi hphi.1 hphi.2]
    by_cases h : phi ∈ Set.Icc (-(Real.pi / N)) (Real.pi / N)
    · rw [Set.indicator_of_mem h, Set.indicator_of_mem h]
    · rw [Set.indicator_of_notMem h, Set.indicator_of_notMem h, mul_zero]
  rw [setIntegral_congr_fun measurableSet_Ioo this, setIntegral_indicator measurableSet_Icc,
    Set.inter_eq_right.2]
  intro x hx
  exact ⟨by have := hx.1; linarith, by have := hx.2; linarith⟩

theorem pm_polygon0 {a : ℝ} (ha : 0 < a) (m k : ℕ) :
    pm (regularPolygon N a 0) m k
      = (if m % N = 0 then (N : ℂ) else 0) * pm (triangle (apo N a, -(a / 2)) (apo N a, a / 2)) m k := by
  have hN0 : (N : ℝ) ≠ 0 := by exact_mod_cast (by omega : N ≠ 0)
  have hN1 : N ≠ 0 := by omega
  have hpi := Real.pi_pos
  set B := regularPolygon N a 0 with hB
  set n := m + 2 * k with hn
  set G : ℝ → ℂ := fun phi => Complex.exp (-Complex.I * m * phi) * rad B n phi with hG
  have hshift : ∀ phi : ℝ, G (phi + 2 * Real.pi / N)
      = Complex.exp (-Complex.I * m * (2 * Real.pi / N)) * G phi := by
    intro phi
    simp only [hG]
    rw [rad_polygon_periodic hN]
    push_cast
    rw [mul_add, Complex.exp_add]; ring
  have hshiftj : ∀ (j : ℕ) (phi : ℝ), G (phi + 2 * Real.pi / N * j)
      = Complex.exp (-Complex.I * m * (2 * Real.pi / N)) ^ j * G phi := by
    intro j
    induction j with
    | zero => intro phi; simp
    | succ j ih =>
      intro phi
      rw [show phi + 2 * Real.pi / N * ((j + 1 : ℕ) : ℝ) = (phi + 2 * Real.pi / N * j) + 2 * Real.pi / N by
        push_cast; ring, hshift, ih, pow_succ]; ring
  have hexpN : Complex.exp (-Complex.I * m * (2 * Real.pi / N)) ^ N = 1 := by
    rw [← Complex.exp_nat_mul]
    have : (N : ℂ) ≠ 0 := by exact_mod_cast hN1
    rw [show (N : ℂ) * (-Complex.I * m * (2 * Real.pi / N)) = ((-(m : ℤ) : ℤ) : ℂ) * (2 * Real.pi * Complex.I) by
      push_cast; field_simp]
    exact Complex.exp_int_mul_two_pi_mul_I _
  have hper : Function.Periodic G (2 * Real.pi) := by
    intro phi
    have := hshiftj N phi
    rw [show 2 * Real.pi / N * (N : ℝ) = 2 * Real.pi by field_simp, hexpN, one_mul] at this
    exact this
  have hcomp := polygon_compact hN ha
  have hint0 : IntervalIntegrable G volume (-Real.pi) Real.pi := rad_integrable B hcomp m n
  have hint : ∀ x y : ℝ, IntervalIntegrable G volume x y := by
    intro x y
    apply hper.intervalIntegrable (by positivity) (t := -Real.pi)
    rw [show -Real.pi + 2 * Real.pi = Real.pi by ring]; exact hint0
  have h1 : pm B m k = ∫ phi in (-(Real.pi / N))..(-(Real.pi / N) + 2 * Real.pi), G phi := by
    rw [pm_rad B hcomp, hper.intervalIntegral_add_eq _ (-Real.pi),
      show -Real.pi + 2 * Real.pi = Real.pi by ring]
  have h2 := intervalIntegral.sum_integral_adjacent_intervals (f := G) (μ := volume)
    (a := fun j : ℕ => -(Real.pi / N) + 2 * Real.pi / N * j) (n := N) (fun j _ => hint _ _)
  simp only [Nat.cast_zero, mul_zero, add_zero] at h2
  rw [show 2 * Real.pi / N * (N : ℝ) = 2 * Real.pi by field_simp] at h2
  rw [h1, ← h2]
  have h3 : ∀ j ∈ range N, ∫ phi in (-(Real.pi / N) + 2 * Real.pi / N * (j : ℝ))..(-(Real.pi / N)
      + 2 * Real.pi / N * ((j + 1 : ℕ) : ℝ)), G phi
      = Complex.exp (-Complex.I * m * (2 * Real.pi / N)) ^ j
        * pm (triangle (apo N a, -(a / 2)) (apo N a, a / 2)) m k := by
    intro j _
    rw [pm_triangle_wedge hN ha, ← intervalIntegral.integral_const_mul]
    have h4 := intervalIntegral.integral_comp_add_right (a := -(Real.pi / N)) (b := Real.pi / N) G
      (2 * Real.pi / N * (j : ℝ))
    rw [show Real.pi / N + 2 * Real.pi / N * (j : ℝ) = -(Real.pi / N) + 2 * Real.pi / N * ((j + 1 : ℕ) : ℝ) by
      push_cast; ring] at h4
    rw [← h4]
    apply intervalIntegral.integral_congr
    intro phi _
    exact hshiftj j phi
  rw [sum_congr rfl h3, ← sum_mul]
  congr 1
  split_ifs with hmN
  · have : Complex.exp (-Complex.I * m * (2 * Real.pi / N)) = 1 := by
      obtain ⟨q, hq⟩ := Nat.dvd_of_mod_eq_zero hmN
      have hNc : (N : ℂ) ≠ 0 := by exact_mod_cast hN1
      rw [hq, show -Complex.I * ((N * q : ℕ) : ℂ) * (2 * Real.pi / N)
        = ((-(q : ℤ) : ℤ) : ℂ) * (2 * Real.pi * Complex.I) by push_cast; field_simp]
      exact Complex.exp_int_mul_two_pi_mul_I _
    rw [this]; simp
  · have hne : Complex.exp (-Complex.I * m * (2 * Real.pi / N)) - 1 ≠ 0 := by
      rw [sub_ne_zero]
      intro h
      rw [Complex.exp_eq_one_iff] at h
      obtain ⟨q, hq⟩ := h
      have hNc : (N : ℂ) ≠ 0 := by exact_mod_cast hN1
      have h2pi : (2 * Real.pi * Complex.I : ℂ) ≠ 0 := by
        simp [Real.pi_ne_zero]
      have h5 : (2 * Real.pi * Complex.I : ℂ) * (m + q * N) = 0 := by
        have hd : -Complex.I * m * (2 * Real.pi / N) * N = -Complex.I * m * (2 * Real.pi) := by
          field_simp
        linear_combination hd - (N : ℂ) * hq
      have h6 := (mul_eq_zero.1 h5).resolve_left h2pi
      have h7 : (m : ℤ) + q * N = 0 := by exact_mod_cast h6
      apply hmN
      have : (N : ℤ) ∣ m := ⟨-q, by linarith⟩
      exact Nat.mod_eq_zero_of_dvd (by exact_mod_cast this)
    have h8 := mul_geom_sum (Complex.exp (-Complex.I * m * (2 * Real.pi / N))) N
    rw [hexpN, sub_self] at h8
    exact (mul_eq_zero.1 h8).resolve_left hne

omit hN in
theorem polygon_rotated (a phic : ℝ) : regularPolygon N a phic = rotated phic (regularPolygon N a 0) := by
  ext p
  simp only [regularPolygon, rotated, Set.mem_setOf_eq, zero_add]
  have key : ∀ (b : ℝ × ℝ) (t : ℝ), (b.1 * Real.cos phic - b.2 * Real.sin phic) * Real.cos (phic + t)
      + (b.1 * Real.sin phic + b.2 * Real.cos phic) * Real.sin (phic + t)
      = b.1 * Real.cos t + b.2 * Real.sin t := by
    intro b t
    rw [Real.cos_add, Real.sin_add]
    have := Real.sin_sq_add_cos_sq phic
    linear_combination (b.1 * Real.cos t + b.2 * Real.sin t) * this
  constructor
  · intro h
    refine ⟨(p.1 * Real.cos phic + p.2 * Real.sin phic, -p.1 * Real.sin phic + p.2 * Real.cos phic), ?_, ?_, ?_⟩
    · intro j hj
      have := h j hj
      rw [← key]
      simp only
      have e := Real.sin_sq_add_cos_sq phic
      convert this using 3
      · linear_combination p.1 * e
      · linear_combination p.2 * e
    · simp only
      have e := Real.sin_sq_add_cos_sq phic
      linear_combination -p.1 * e
    · simp only
      have e := Real.sin_sq_add_cos_sq phic
      linear_combination -p.2 * e
  · rintro ⟨b, hb, h1, h2⟩ j hj
    rw [h1, h2, key]; exact hb j hj

theorem pm_polygon {a : ℝ} (ha : 0 < a) (phic : ℝ) (m k : ℕ) :
    pm (regularPolygon N a phic) m k
      = Complex.exp (-Complex.I * m * phic) * ((if m % N = 0 then (N : ℂ) else 0)
        * pm (triangle (apo N a, -(a / 2)) (apo N a, a / 2)) m k) := by
  rw [polygon_rotated, pm_rotated, pm_polygon0 hN ha]

end

end Newt
