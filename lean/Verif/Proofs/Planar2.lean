import Verif.Proofs.Planar

/-! # Planar moments: monomial expansions, rectangles and right triangles -/

namespace Newt

open MeasureTheory Finset Spec

theorem pmf_expand1 (m k : ℕ) (x y : ℝ) :
    pmf m k (x, y) = ∑ p ∈ range (m + k + 1), ∑ j ∈ range (k + 1),
      ((m + k).choose p : ℂ) * (k.choose j : ℂ) * (Complex.I ^ (p + j) * (-1) ^ p)
        * ((x ^ (m + 2 * k - (p + j)) * y ^ (p + j) : ℝ) : ℂ) := by
  have h : pmf m k (x, y) = (-(Complex.I * y) + x) ^ (m + k) * (Complex.I * y + x) ^ k := by
    simp only [pmf]
    rw [pow_add, mul_assoc, ← mul_pow]
    congr 1
    · congr 1; ring
    · congr 1; ring_nf; simp
  rw [h, add_pow, add_pow, sum_mul_sum]
  refine sum_congr rfl fun p hp => sum_congr rfl fun j hj => ?_
  simp only [mem_range] at hp hj
  rw [show m + 2 * k - (p + j) = (m + k - p) + (k - j) by omega, pow_add]
  push_cast
  rw [neg_pow (Complex.I * (y : ℂ)) p, mul_pow, mul_pow]
  ring

theorem pmf_expand2 (m k : ℕ) (x y : ℝ) :
    pmf m k (x, y) = ∑ p ∈ range (m + 1), ∑ j ∈ range (k + 1),
      (m.choose p : ℂ) * (k.choose j : ℂ) * (-Complex.I) ^ p
        * ((x ^ (m + 2 * k - (2 * j + p)) * y ^ (2 * j + p) : ℝ) : ℂ) := by
  have h : pmf m k (x, y) = (-Complex.I * y + x) ^ m * ((y : ℂ) ^ 2 + (x : ℂ) ^ 2) ^ k := by
    simp only [pmf]
    congr 2 <;> ring
  rw [h, add_pow, add_pow, sum_mul_sum]
  refine sum_congr rfl fun p hp => sum_congr rfl fun j hj => ?_
  simp only [mem_range] at hp hj
  rw [show m + 2 * k - (2 * j + p) = (m - p) + 2 * (k - j) by omega, pow_add, pow_add]
  push_cast
  rw [mul_pow, ← pow_mul, ← pow_mul]
  ring

/-- A sum over `p ≤ m` whose odd terms vanish. -/
theorem sum_even (m : ℕ) (f : ℕ → ℂ) (h : ∀ p, p % 2 = 1 → f p = 0) :
    ∑ p ∈ range (m + 1), f p = ∑ p ∈ range (m / 2 + 1), f (2 * p) := by
  symm
  refine sum_of_injOn (fun p => 2 * p) ?_ ?_ ?_ ?_
  · intro a _ b _ hab; simp at hab; exact hab
  · intro p hp; simp at hp ⊢; omega
  · intro p hp hn
    apply h
    simp only [Set.mem_image, coe_range, Set.mem_Iio, not_exists, not_and] at hn
    simp only [mem_range] at hp
    by_contra hc
    exact hn (p / 2) (by omega) (by omega)
  · intro p _; rfl

theorem neg_I_pow_two_mul (p : ℕ) : (-Complex.I) ^ (2 * p) = (-1) ^ p := by
  rw [pow_mul]; simp

/-- The integral along the side of a triangle, expanded. -/
theorem tint_expand (d y1 y2 : ℝ) (m k : ℕ) :
    tint d y1 y2 m k = ∑ p ∈ range (m + k + 1), ∑ j ∈ range (k + 1),
      ((m + k).choose p : ℂ) * (k.choose j : ℂ) * (Complex.I ^ (p + j) * (-1) ^ p)
        * ((d ^ (m + 2 * k - (p + j)) * ((y2 ^ (p + j + 1) - y1 ^ (p + j + 1)) / ((p + j : ℕ) + 1)) : ℝ) : ℂ) := by
  rw [tint]
  simp_rw [pmf_expand1]
  rw [intervalIntegral.integral_finset_sum]
  swap
  · intro p _; exact Continuous.intervalIntegrable (by fun_prop) _ _
  refine sum_congr rfl fun p _ => ?_
  rw [intervalIntegral.integral_finset_sum]
  swap
  · intro p _; exact Continuous.intervalIntegrable (by fun_prop) _ _
  refine sum_congr rfl fun j _ => ?_
  rw [intervalIntegral.integral_const_mul, intervalIntegral.integral_ofReal,
    intervalIntegral.integral_const_mul, integral_pow]

/-- Same for a side symmetric about the x axis: only even powers of `y` survive. -/
theorem tint_sym (d a : ℝ) (m k : ℕ) :
    tint d (-(a / 2)) (a / 2) m k = ((∑ p ∈ range (m / 2 + 1), ∑ j ∈ range (k + 1),
      (m.choose (2 * p) : ℝ) * (k.choose j : ℝ) * (-1) ^ p
        * (d ^ (m + 2 * k - (2 * j + 2 * p)) * zint a (2 * j + 2 * p)) : ℝ) : ℂ) := by
  have h1 : tint d (-(a / 2)) (a / 2) m k = ∑ p ∈ range (m + 1), ∑ j ∈ range (k + 1),
      (m.choose p : ℂ) * (k.choose j : ℂ) * (-Complex.I) ^ p
        * ((d ^ (m + 2 * k - (2 * j + p)) * zint a (2 * j + p) : ℝ) : ℂ) := by
    rw [tint]
    simp_rw [pmf_expand2]
    rw [intervalIntegral.integral_finset_sum]
    swap
    · intro p _; exact Continuous.intervalIntegrable (by fun_prop) _ _
    refine sum_congr rfl fun p _ => ?_
    rw [intervalIntegral.integral_finset_sum]
    swap
    · intro p _; exact Continuous.intervalIntegrable (by fun_prop) _ _
    refine sum_congr rfl fun j _ => ?_
    rw [intervalIntegral.integral_const_mul, intervalIntegral.integral_ofReal,
      intervalIntegral.integral_const_mul, zint]
  rw [h1, sum_even]
  · push_cast
    refine sum_congr rfl fun p _ => sum_congr rfl fun j _ => ?_
    rw [neg_I_pow_two_mul]
  · intro p hp
    refine sum_eq_zero fun j _ => ?_
    rw [zint_odd a _ (by omega)]; simp

/-! ## Rectangles -/

theorem rectangle_eq (a b : ℝ) :
    rectangle a b = Set.Icc (-(a / 2)) (a / 2) ×ˢ Set.Icc (-(b / 2)) (b / 2) := by
  ext p; simp only [rectangle, abs_le, Set.mem_setOf_eq, Set.mem_prod, Set.mem_Icc]

theorem rectangle_compact (a b : ℝ) : IsCompact (rectangle a b) := by
  rw [rectangle_eq]; exact isCompact_Icc.prod isCompact_Icc

theorem int_Icc_pow (a : ℝ) (ha : 0 < a) (j : ℕ) :
    ∫ x in Set.Icc (-(a / 2)) (a / 2), (x : ℂ) ^ j = ((zint a j : ℝ) : ℂ) := by
  rw [zint, intervalIntegral.integral_of_le (by linarith), ← integral_Icc_eq_integral_Ioc,
    ← integral_complex_ofReal]
  congr 1; ext z; push_cast; rfl

theorem rect_mono (a b : ℝ) (ha : 0 < a) (hb : 0 < b) (i j : ℕ) :
    ∫ p in rectangle a b, ((p.1 ^ i * p.2 ^ j : ℝ) : ℂ) = ((zint a i * zint b j : ℝ) : ℂ) := by
  rw [rectangle_eq]
  have := setIntegral_prod_mul (μ := (volume : Measure ℝ)) (ν := (volume : Measure ℝ))
    (fun x : ℝ => (x : ℂ) ^ i) (fun y : ℝ => (y : ℂ) ^ j) (Set.Icc (-(a / 2)) (a / 2))
    (Set.Icc (-(b / 2)) (b / 2))
  rw [int_Icc_pow a ha, int_Icc_pow b hb, ← Measure.volume_eq_prod] at this
  push_cast
  exact this

theorem pm_expand_int (B : Set (ℝ × ℝ)) (hB : IsCompact B) (m k : ℕ) :
    pm B m k = ∑ p ∈ range (m + k + 1), ∑ j ∈ range (k + 1),
      ((m + k).choose p : ℂ) * (k.choose j : ℂ) * (Complex.I ^ (p + j) * (-1) ^ p)
        * ∫ q in B, ((q.1 ^ (m + 2 * k - (p + j)) * q.2 ^ (p + j) : ℝ) : ℂ) := by
  rw [pm]
  have : ∀ q : ℝ × ℝ, pmf m k q = ∑ p ∈ range (m + k + 1), ∑ j ∈ range (k + 1),
      ((m + k).choose p : ℂ) * (k.choose j : ℂ) * (Complex.I ^ (p + j) * (-1) ^ p)
        * ((q.1 ^ (m + 2 * k - (p + j)) * q.2 ^ (p + j) : ℝ) : ℂ) := fun q => pmf_expand1 m k q.1 q.2
  simp_rw [this]
  rw [integral_finset_sum]
  swap
  · intro p _; exact ContinuousOn.integrableOn_compact hB (Continuous.continuousOn (by fun_prop))
  refine sum_congr rfl fun p _ => ?_
  rw [integral_finset_sum]
  swap
  · intro p _; exact ContinuousOn.integrableOn_compact hB (Continuous.continuousOn (by fun_prop))
  exact sum_congr rfl fun j _ => integral_const_mul _ _

theorem pm_expand_int2 (B : Set (ℝ × ℝ)) (hB : IsCompact B) (m k : ℕ) :
    pm B m k = ∑ p ∈ range (m + 1), ∑ j ∈ range (k + 1),
      (m.choose p : ℂ) * (k.choose j : ℂ) * (-Complex.I) ^ p
        * ∫ q in B, ((q.1 ^ (m + 2 * k - (2 * j + p)) * q.2 ^ (2 * j + p) : ℝ) : ℂ) := by
  rw [pm]
  have : ∀ q : ℝ × ℝ, pmf m k q = ∑ p ∈ range (m + 1), ∑ j ∈ range (k + 1),
      (m.choose p : ℂ) * (k.choose j : ℂ) * (-Complex.I) ^ p
        * ((q.1 ^ (m + 2 * k - (2 * j + p)) * q.2 ^ (2 * j + p) : ℝ) : ℂ) := fun q => pmf_expand2 m k q.1 q.2
  simp_rw [this]
  rw [integral_finset_sum]
  swap
  · intro p _; exact ContinuousOn.integrableOn_compact hB (Continuous.continuousOn (by fun_prop))
  refine sum_congr rfl fun p _ => ?_
  rw [integral_finset_sum]
  swap
  · intro p _; exact ContinuousOn.integrableOn_compact hB (Continuous.continuousOn (by fun_prop))
  exact sum_congr rfl fun j _ => integral_const_mul _ _

/-! ## Right triangles -/

theorem mem_right (X Y : ℝ) (hX : 0 < X) (hY : 0 < Y) (x y : ℝ) :
    (x, y) ∈ triangle (X, 0) (0, Y) ↔ 0 ≤ x ∧ x ≤ X ∧ 0 ≤ y ∧ y ≤ Y * (1 - x / X) := by
  constructor
  · rintro ⟨s, t, h1, h2, h3, h4, h5⟩
    simp only [mul_zero, add_zero, zero_add] at h4 h5
    subst h4 h5
    refine ⟨by positivity, by nlinarith, by positivity, ?_⟩
    rw [mul_div_assoc, div_self hX.ne']; nlinarith
  · rintro ⟨h1, h2, h3, h4⟩
    refine ⟨x / X, y / Y, by positivity, by positivity, ?_, ?_, ?_⟩
    · have : y / Y ≤ 1 - x / X := by rw [div_le_iff₀ hY]; linarith
      linarith
    · simp; field_simp
    · simp; field_simp

theorem right_mono (X Y : ℝ) (hX : 0 < X) (hY : 0 < Y) (i j : ℕ) :
    ∫ p in triangle (X, 0) (0, Y), ((p.1 ^ i * p.2 ^ j : ℝ) : ℂ)
      = ((Y ^ (j + 1) / (j + 1) * bint X i (j + 1) : ℝ) : ℂ) := by
  set T := triangle (X, 0) (0, Y) with hT
  have hc : IsCompact T := triangle_compact _ _
  set f : ℝ × ℝ → ℝ := fun p => p.1 ^ i * p.2 ^ j with hf
  have hint : IntegrableOn f T := ContinuousOn.integrableOn_compact hc (Continuous.continuousOn (by fun_prop))
  rw [integral_complex_ofReal]
  congr 1
  rw [← integral_indicator hc.measurableSet]
  have hint2 : Integrable (T.indicator f) := (integrable_indicator_iff hc.measurableSet).2 hint
  rw [Measure.volume_eq_prod] at hint2 ⊢
  rw [integral_prod _ hint2]
  have key : ∀ x : ℝ, ∫ y : ℝ, T.indicator f (x, y)
      = (Set.Icc (0 : ℝ) X).indicator (fun x => Y ^ (j + 1) / (j + 1) * (x ^ i * (1 - x / X) ^ (j + 1))) x := by
    intro x
    by_cases hx : x ∈ Set.Icc (0 : ℝ) X
    · rw [Set.indicator_of_mem hx]
      have hle : 0 ≤ Y * (1 - x / X) := by
        have : x / X ≤ 1 := by rw [div_le_one hX]; exact hx.2
        exact mul_nonneg hY.le (by linarith)
      have hsl : (fun y : ℝ => T.indicator f (x, y))
          = (Set.Icc 0 (Y * (1 - x / X))).indicator (fun y => x ^ i * y ^ j) := by
        ext y
        have hiff : (x, y) ∈ T ↔ y ∈ Set.Icc 0 (Y * (1 - x / X)) := by
          rw [hT, mem_right X Y hX hY]
          exact ⟨fun h => ⟨h.2.2.1, h.2.2.2⟩, fun h => ⟨hx.1, hx.2, h.1, h.2⟩⟩
        by_cases hyT : (x, y) ∈ T
        · rw [Set.indicator_of_mem hyT, Set.indicator_of_mem (hiff.1 hyT)]
        · rw [Set.indicator_of_notMem hyT, Set.indicator_of_notMem (fun h => hyT (hiff.2 h))]
      rw [hsl, integral_indicator measurableSet_Icc, integral_Icc_eq_integral_Ioc,
        ← intervalIntegral.integral_of_le hle, intervalIntegral.integral_const_mul, integral_pow,
        mul_pow]
      simp; ring
    · rw [Set.indicator_of_notMem hx]
      have : (fun y : ℝ => T.indicator f (x, y)) = fun _ => 0 := by
        ext y
        apply Set.indicator_of_notMem
        rw [hT, mem_right X Y hX hY]
        rintro ⟨h1, h2, _⟩
        exact hx ⟨h1, h2⟩
      rw [this]; simp
  simp_rw [key]
  rw [integral_indicator measurableSet_Icc, integral_const_mul, integral_Icc_eq_integral_Ioc, bint,
    intervalIntegral.integral_of_le hX.le]

end Newt
