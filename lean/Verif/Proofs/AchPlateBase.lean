import Verif.Proofs.AchSolid

/-! # The hole drilled through a plate: monomial integrals -/

namespace Newt.Ach

open MeasureTheory Finset Spec

/-- `∫ x^a y^b` over the disc of radius `r`. -/
noncomputable def discM (r : ℝ) (a b : ℕ) : ℝ := ∫ q in disc r, q.1 ^ a * q.2 ^ b

theorem disc_compact' (r : ℝ) : IsCompact (disc r) := by
  have h1 : disc r = disc |r| := by simp [disc]
  rw [h1]
  exact disc_compact _ (abs_nonneg r)

theorem expands_disc (r : ℝ) : Expands (pm (disc r)) (fun a b => ((discM r a b : ℝ) : ℂ)) :=
  expands_pm _ (disc_compact' r) _ fun a b => by rw [discM, integral_complex_ofReal]

theorem disc_vals (r : ℝ) : discM r 0 0 = Real.pi * r ^ 2 ∧ discM r 1 0 = 0 ∧ discM r 0 1 = 0
    ∧ discM r 2 0 = Real.pi * r ^ 4 / 4 ∧ discM r 1 1 = 0 ∧ discM r 0 2 = Real.pi * r ^ 4 / 4
    ∧ discM r 3 0 = 0 ∧ discM r 2 1 = 0 ∧ discM r 1 2 = 0 ∧ discM r 0 3 = 0
    ∧ discM r 4 0 = Real.pi * r ^ 6 / 8 ∧ discM r 3 1 = 0 ∧ discM r 2 2 = Real.pi * r ^ 6 / 24 ∧ discM r 1 3 = 0
    ∧ discM r 0 4 = Real.pi * r ^ 6 / 8
    ∧ discM r 5 0 = 0 ∧ discM r 4 1 = 0 ∧ discM r 3 2 = 0 ∧ discM r 2 3 = 0 ∧ discM r 1 4 = 0 ∧ discM r 0 5 = 0 := by
  have hE := expands_disc r
  have g : ∀ {a b : ℂ}, a = b → a.re = b.re ∧ a.im = b.im := fun h => by rw [h]; exact ⟨rfl, rfl⟩
  have h00 := g (pmX_00 hE)
  have h01 := g (pmX_01 hE)
  have h02 := g (pmX_02 hE)
  have h10 := g (pmX_10 hE)
  have h11 := g (pmX_11 hE)
  have h12 := g (pmX_12 hE)
  have h20 := g (pmX_20 hE)
  have h21 := g (pmX_21 hE)
  have h30 := g (pmX_30 hE)
  have h31 := g (pmX_31 hE)
  have h40 := g (pmX_40 hE)
  have h50 := g (pmX_50 hE)
  rw [pm_disc'] at h00 h01 h02 h10 h11 h12 h20 h21 h30 h31 h40 h50
  simp at h00 h01 h02 h10 h11 h12 h20 h21 h30 h31 h40 h50
  norm_num at h00 h01 h02 h10 h11 h12 h20 h21 h30 h31 h40 h50
  have hre : ∀ n : ℕ, ((r : ℂ) ^ n).re = r ^ n := fun n => by rw [← Complex.ofReal_pow, Complex.ofReal_re]
  rw [hre] at h00 h01 h02
  refine ⟨?_, ?_, ?_, ?_, ?_, ?_, ?_, ?_, ?_, ?_, ?_, ?_, ?_, ?_, ?_, ?_, ?_, ?_, ?_, ?_, ?_⟩ <;>
    linarith

/-- The hole in coordinates `(z, (x, y))`. -/
def plateC (t r theta : ℝ) : Set (ℝ × (ℝ × ℝ)) :=
  {p | -(t / 2) ≤ p.1 ∧ p.1 ≤ t / 2 ∧ (p.2.1 * Real.cos theta - p.1 * Real.sin theta) ^ 2 + p.2.2 ^ 2 ≤ r ^ 2}

theorem plateC_compact (t r theta : ℝ) (hr : 0 < r) (hc : 0 < Real.cos theta) :
    IsCompact (plateC t r theta) := by
  have ht : 0 ≤ |t| := abs_nonneg t
  set X := (r + |t| / 2) / Real.cos theta with hX
  refine IsCompact.of_isClosed_subset ((isCompact_Icc (a := -(t / 2)) (b := t / 2)).prod
    ((isCompact_Icc (a := -X) (b := X)).prod (isCompact_Icc (a := -r) (b := r)))) ?_ ?_
  · refine IsClosed.inter (isClosed_le continuous_const continuous_fst) ?_
    refine IsClosed.inter (isClosed_le continuous_fst continuous_const) ?_
    exact isClosed_le (f := fun p : ℝ × (ℝ × ℝ) => (p.2.1 * Real.cos theta - p.1 * Real.sin theta) ^ 2 + p.2.2 ^ 2)
      (by fun_prop) continuous_const
  · rintro ⟨z, x, y⟩ ⟨h1, h2, h3⟩
    simp only at h1 h2 h3
    have hz : |z * Real.sin theta| ≤ |t| / 2 := by
      rw [abs_mul]
      have hz1 : |z| ≤ |t| / 2 := by
        rw [abs_le]
        have := le_abs_self t
        constructor <;> linarith
      have := Real.abs_sin_le_one theta
      nlinarith [abs_nonneg z, abs_nonneg (Real.sin theta)]
    have hu : |x * Real.cos theta - z * Real.sin theta| ≤ r := abs_le_of_sq_le_sq (by nlinarith [sq_nonneg y]) hr.le
    have hy : |y| ≤ r := abs_le_of_sq_le_sq (by nlinarith [sq_nonneg (x * Real.cos theta - z * Real.sin theta)]) hr.le
    have hx : |x| ≤ X := by
      rw [hX, le_div_iff₀ hc]
      have : |x * Real.cos theta| ≤ r + |t| / 2 := by
        have := abs_add_le (x * Real.cos theta - z * Real.sin theta) (z * Real.sin theta)
        rw [sub_add_cancel] at this
        linarith
      rwa [abs_mul, abs_of_pos hc] at this
    exact ⟨⟨h1, h2⟩, abs_le.1 hx, abs_le.1 hy⟩

/-- A section of the hole is the disc, stretched by `1 / cos` and displaced. -/
theorem section_int (r c w : ℝ) (hc : 0 < c) (a b : ℕ) :
    ∫ q in {q : ℝ × ℝ | (q.1 * c - w * c) ^ 2 + q.2 ^ 2 ≤ r ^ 2}, q.1 ^ a * q.2 ^ b
      = ∑ i ∈ range (a + 1), (a.choose i : ℝ) * w ^ (a - i) * (1 / c) ^ (i + 1) * discM r i b := by
  set E := {q : ℝ × ℝ | (q.1 * c - w * c) ^ 2 + q.2 ^ 2 ≤ r ^ 2} with hE
  set H : ℝ × ℝ → ℝ := (disc r).indicator fun q => (q.1 / c + w) ^ a * q.2 ^ b with hH
  have hEm : MeasurableSet E :=
    (isClosed_le (f := fun q : ℝ × ℝ => (q.1 * c - w * c) ^ 2 + q.2 ^ 2) (by fun_prop) continuous_const).measurableSet
  have hcont : Continuous fun q : ℝ × ℝ => (q.1 / c + w) ^ a * q.2 ^ b := by fun_prop
  have hHint : Integrable H := (integrable_indicator_iff (disc_measurable r)).2
    (hcont.continuousOn.integrableOn_compact (disc_compact' r))
  have hind : ∀ x y : ℝ, E.indicator (fun q => q.1 ^ a * q.2 ^ b) (x, y) = H (c * (x - w), y) := by
    intro x y
    have hiff : (x, y) ∈ E ↔ (c * (x - w), y) ∈ disc r := by
      simp only [hE, disc, Set.mem_setOf_eq]
      rw [show x * c - w * c = c * (x - w) by ring]
    by_cases h : (x, y) ∈ E
    · rw [Set.indicator_of_mem h, hH, Set.indicator_of_mem (hiff.1 h)]
      simp only
      rw [mul_div_cancel_left₀ _ hc.ne', sub_add_cancel]
    · rw [Set.indicator_of_notMem h, hH, Set.indicator_of_notMem (fun h' => h (hiff.2 h'))]
  have hEcomp : IsCompact E := by
    have : E = (fun q : ℝ × ℝ => (q.1 / c + w, q.2)) '' disc r := by
      ext ⟨x, y⟩
      simp only [hE, disc, Set.mem_setOf_eq, Set.mem_image, Prod.exists, Prod.mk.injEq]
      constructor
      · intro h
        exact ⟨c * (x - w), y, by rw [show c * (x - w) = x * c - w * c by ring]; exact h,
          by rw [mul_div_cancel_left₀ _ hc.ne', sub_add_cancel], rfl⟩
      · rintro ⟨u, v, h, rfl, rfl⟩
        rw [show (u / c + w) * c - w * c = u by field_simp; ring]; exact h
    rw [this]
    exact (disc_compact' r).image (by fun_prop)
  have hEint : Integrable (E.indicator fun q : ℝ × ℝ => q.1 ^ a * q.2 ^ b) := (integrable_indicator_iff hEm).2
    ((Continuous.continuousOn (by fun_prop)).integrableOn_compact hEcomp)
  rw [← integral_indicator hEm]
  rw [Measure.volume_eq_prod] at hEint hHint ⊢
  rw [integral_prod_symm _ hEint]
  simp_rw [hind]
  have hin : ∀ y : ℝ, ∫ x : ℝ, H (c * (x - w), y) = 1 / c * ∫ u : ℝ, H (u, y) := by
    intro y
    rw [integral_sub_right_eq_self (fun x => H (c * x, y)) w, Measure.integral_comp_mul_left (fun u => H (u, y)) c,
      abs_of_pos (inv_pos.2 hc), one_div, smul_eq_mul]
  simp_rw [hin]
  rw [integral_const_mul, ← integral_prod_symm _ hHint, hH, ← Measure.volume_eq_prod,
    integral_indicator (disc_measurable r)]
  have hexp : ∀ q : ℝ × ℝ, (q.1 / c + w) ^ a * q.2 ^ b
      = ∑ i ∈ range (a + 1), (a.choose i : ℝ) * w ^ (a - i) * (1 / c) ^ i * (q.1 ^ i * q.2 ^ b) := by
    intro q
    rw [add_pow, sum_mul]
    refine sum_congr rfl fun i _ => ?_
    rw [div_pow, div_pow, one_pow]; ring
  simp_rw [hexp]
  rw [integral_finset_sum]
  swap
  · intro i _
    exact (Continuous.continuousOn (by fun_prop)).integrableOn_compact (disc_compact' r)
  rw [mul_sum]
  refine sum_congr rfl fun i _ => ?_
  rw [integral_const_mul, discM]; ring

theorem plate_mon (t r theta : ℝ) (ht : 0 < t) (hr : 0 < r) (hc : 0 < Real.cos theta) (e a b : ℕ) :
    mon3 (plateC t r theta) e a b = ∑ i ∈ range (a + 1), (a.choose i : ℝ) * Real.tan theta ^ (a - i)
      * (1 / Real.cos theta) ^ (i + 1) * discM r i b * zint t (e + (a - i)) := by
  have hcomp := plateC_compact t r theta hr hc
  rw [mon3, sections_real _ hcomp (-(t / 2)) (t / 2) (by linarith)
    (fun z => {q : ℝ × ℝ | (q.1 * Real.cos theta - z * Real.tan theta * Real.cos theta) ^ 2 + q.2 ^ 2 ≤ r ^ 2})]
  · have : ∀ z : ℝ, ∫ q in {q : ℝ × ℝ | (q.1 * Real.cos theta - z * Real.tan theta * Real.cos theta) ^ 2 + q.2 ^ 2 ≤ r ^ 2},
        z ^ e * (q.1 ^ a * q.2 ^ b)
        = ∑ i ∈ range (a + 1), ((a.choose i : ℝ) * Real.tan theta ^ (a - i) * (1 / Real.cos theta) ^ (i + 1) * discM r i b)
          * z ^ (e + (a - i)) := by
      intro z
      rw [integral_const_mul, section_int r _ _ hc, mul_sum]
      refine sum_congr rfl fun i _ => ?_
      rw [mul_pow, pow_add]; ring
    simp_rw [this]
    rw [intervalIntegral.integral_finset_sum]
    swap
    · intro p _; exact Continuous.intervalIntegrable (by fun_prop) _ _
    refine sum_congr rfl fun i _ => ?_
    rw [intervalIntegral.integral_const_mul, zint]
  · intro z
    exact (isClosed_le (f := fun q : ℝ × ℝ => (q.1 * Real.cos theta - z * Real.tan theta * Real.cos theta) ^ 2 + q.2 ^ 2)
      (by fun_prop) continuous_const).measurableSet
  · intro z q
    simp only [plateC, Set.mem_setOf_eq, Set.mem_Icc, and_assoc, mul_assoc, Real.tan_mul_cos hc.ne']
  · fun_prop

end Newt.Ach
