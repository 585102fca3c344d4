import Verif.Proofs.AchCylBase

/-! # The hole drilled into a cylinder: monomial integrals -/

namespace Newt.Ach

open MeasureTheory Finset Spec

/-- The hole in coordinates `(z, (x, y))`. -/
def cylC (r R : ℝ) : Set (ℝ × (ℝ × ℝ)) := {p | p.2.1 ^ 2 + p.2.2 ^ 2 ≤ r ^ 2 ∧ p.2.1 ^ 2 + p.1 ^ 2 ≤ R ^ 2}

/-- The same in coordinates `(x, (z, y))`. -/
def cylX (r R : ℝ) : Set (ℝ × (ℝ × ℝ)) := {p | p.1 ^ 2 + p.2.2 ^ 2 ≤ r ^ 2 ∧ p.1 ^ 2 + p.2.1 ^ 2 ≤ R ^ 2}

theorem cylC_compact (r R : ℝ) (hr : 0 < r) (hR : 0 < R) : IsCompact (cylC r R) := by
  refine IsCompact.of_isClosed_subset ((isCompact_Icc (a := -R) (b := R)).prod
    ((isCompact_Icc (a := -r) (b := r)).prod (isCompact_Icc (a := -r) (b := r)))) ?_ ?_
  · refine IsClosed.inter ?_ ?_
    · exact isClosed_le (f := fun p : ℝ × (ℝ × ℝ) => p.2.1 ^ 2 + p.2.2 ^ 2) (by fun_prop) continuous_const
    · exact isClosed_le (f := fun p : ℝ × (ℝ × ℝ) => p.2.1 ^ 2 + p.1 ^ 2) (by fun_prop) continuous_const
  · rintro ⟨z, x, y⟩ ⟨h1, h2⟩
    simp only at h1 h2
    exact ⟨abs_le.1 (abs_le_of_sq_le_sq (by nlinarith [sq_nonneg x]) hR.le),
      abs_le.1 (abs_le_of_sq_le_sq (by nlinarith [sq_nonneg y]) hr.le),
      abs_le.1 (abs_le_of_sq_le_sq (by nlinarith [sq_nonneg x]) hr.le)⟩

theorem cylX_compact (r R : ℝ) (hr : 0 < r) (hR : 0 < R) : IsCompact (cylX r R) := by
  have : cylX r R = (fun p : ℝ × (ℝ × ℝ) => (p.2.1, (p.1, p.2.2))) '' cylC r R := by
    ext ⟨x, z, y⟩
    simp only [cylX, cylC, Set.mem_setOf_eq, Set.mem_image, Prod.exists, Prod.mk.injEq]
    constructor
    · intro h; exact ⟨z, x, y, h, rfl, rfl, rfl⟩
    · rintro ⟨z', x', y', h, rfl, rfl, rfl⟩; exact h
  rw [this]
  exact (cylC_compact r R hr hR).image (by fun_prop)

/-- Exchanging the first two coordinates. -/
def swp : ℝ × (ℝ × ℝ) ≃ᵐ ℝ × (ℝ × ℝ) where
  toFun p := (p.2.1, (p.1, p.2.2))
  invFun p := (p.2.1, (p.1, p.2.2))
  left_inv _ := rfl
  right_inv _ := rfl
  measurable_toFun := by change Measurable fun p : ℝ × (ℝ × ℝ) => (p.2.1, (p.1, p.2.2)); fun_prop
  measurable_invFun := by change Measurable fun p : ℝ × (ℝ × ℝ) => (p.2.1, (p.1, p.2.2)); fun_prop

theorem swp_mp : MeasurePreserving swp := by
  have h1 := (measurePreserving_prodAssoc (volume : Measure ℝ) (volume : Measure ℝ) (volume : Measure ℝ)).symm
  have h2 : MeasurePreserving (Prod.swap : ℝ × ℝ → ℝ × ℝ) (volume.prod volume) (volume.prod volume) :=
    Measure.measurePreserving_swap
  have h3 := h2.prod (MeasurePreserving.id (volume : Measure ℝ))
  have h4 := measurePreserving_prodAssoc (volume : Measure ℝ) (volume : Measure ℝ) (volume : Measure ℝ)
  exact h4.comp (h3.comp h1)

theorem mon3_swap (r R : ℝ) (e a b : ℕ) :
    mon3 (cylC r R) e a b = ∫ p in cylX r R, p.1 ^ a * (p.2.1 ^ e * p.2.2 ^ b) := by
  have h := swp_mp.setIntegral_preimage_emb swp.measurableEmbedding (fun p => p.1 ^ a * (p.2.1 ^ e * p.2.2 ^ b)) (cylX r R)
  rw [← h, mon3]
  have hs : swp ⁻¹' cylX r R = cylC r R := rfl
  rw [hs]
  refine setIntegral_congr_fun ?_ fun p _ => ?_
  · exact (IsClosed.inter
      (isClosed_le (f := fun p : ℝ × (ℝ × ℝ) => p.2.1 ^ 2 + p.2.2 ^ 2) (by fun_prop) continuous_const)
      (isClosed_le (f := fun p : ℝ × (ℝ × ℝ) => p.2.1 ^ 2 + p.1 ^ 2) (by fun_prop) continuous_const)).measurableSet
  · change p.1 ^ e * (p.2.1 ^ a * p.2.2 ^ b) = p.2.1 ^ a * (p.1 ^ e * p.2.2 ^ b)
    ring

theorem icc_zint (s : ℝ) (hs : 0 ≤ s) (j : ℕ) : ∫ z in Set.Icc (-s) s, z ^ j = zint (2 * s) j := by
  rw [zint, integral_Icc_eq_integral_Ioc, ← intervalIntegral.integral_of_le (by linarith), mul_div_cancel_left₀ _ two_ne_zero]

theorem abs_sqrt_sq (z u : ℝ) (hu : 0 ≤ u) (h : |z| ≤ Real.sqrt u) : z ^ 2 ≤ u := by
  have := pow_le_pow_left₀ (abs_nonneg z) h 2
  rwa [sq_abs, Real.sq_sqrt hu] at this

theorem cyl_mon_x (r R : ℝ) (hr : 0 < r) (hR : r ≤ R) (e a b : ℕ) :
    mon3 (cylC r R) e a b
      = ∫ x in (-r)..r, x ^ a * (zint (2 * Real.sqrt (R ^ 2 - x ^ 2)) e * zint (2 * Real.sqrt (r ^ 2 - x ^ 2)) b) := by
  have hR0 : 0 < R := by linarith
  rw [mon3_swap, sections_real _ (cylX_compact r R hr hR0) (-r) r (by linarith)
    (fun x => Set.Icc (-Real.sqrt (R ^ 2 - x ^ 2)) (Real.sqrt (R ^ 2 - x ^ 2)) ×ˢ
      Set.Icc (-Real.sqrt (r ^ 2 - x ^ 2)) (Real.sqrt (r ^ 2 - x ^ 2)))]
  · refine intervalIntegral.integral_congr fun x _ => ?_
    simp only
    rw [integral_const_mul, Measure.volume_eq_prod, setIntegral_prod_mul (fun z : ℝ => z ^ e) (fun y : ℝ => y ^ b),
      icc_zint _ (Real.sqrt_nonneg _), icc_zint _ (Real.sqrt_nonneg _)]
  · intro x; exact measurableSet_Icc.prod measurableSet_Icc
  · rintro x ⟨z, y⟩
    simp only [cylX, Set.mem_setOf_eq, Set.mem_Icc, Set.mem_prod, ← abs_le]
    constructor
    · rintro ⟨h1, h2⟩
      refine ⟨abs_le_of_sq_le_sq (by nlinarith [sq_nonneg y]) hr.le, ?_, ?_⟩
      · exact Real.abs_le_sqrt (by linarith)
      · exact Real.abs_le_sqrt (by linarith)
    · rintro ⟨h0, h1, h2⟩
      have hx : x ^ 2 ≤ r ^ 2 := by rw [← sq_abs x]; nlinarith [abs_nonneg x]
      have hRr : r ^ 2 ≤ R ^ 2 := by nlinarith
      have e1 := abs_sqrt_sq z (R ^ 2 - x ^ 2) (by linarith) h1
      have e2 := abs_sqrt_sq y (r ^ 2 - x ^ 2) (by linarith) h2
      constructor <;> linarith
  · fun_prop

/-- `∫ x^(2n) sqrt (R^2 - x^2) sqrt (r^2 - x^2)` over the hole. -/
noncomputable def wInt (r R : ℝ) (n : ℕ) : ℝ :=
  ∫ x in (-r)..r, x ^ (2 * n) * (Real.sqrt (R ^ 2 - x ^ 2) * Real.sqrt (r ^ 2 - x ^ 2))

theorem wInt_eq (r R : ℝ) (hr : 0 < r) (hR : r ≤ R) (n : ℕ) :
    wInt r R n = 2 * r ^ (2 * n + 2) * R * tInt (r / R) n := by
  have hR0 : 0 < R := by linarith
  have hcont : Continuous fun x : ℝ => x ^ (2 * n) * (Real.sqrt (R ^ 2 - x ^ 2) * Real.sqrt (r ^ 2 - x ^ 2)) := by fun_prop
  have heven : ∀ x : ℝ, (-x) ^ (2 * n) * (Real.sqrt (R ^ 2 - (-x) ^ 2) * Real.sqrt (r ^ 2 - (-x) ^ 2))
      = x ^ (2 * n) * (Real.sqrt (R ^ 2 - x ^ 2) * Real.sqrt (r ^ 2 - x ^ 2)) := fun x => by
    rw [neg_sq, Even.neg_pow ⟨n, by ring⟩]
  have hhalf : wInt r R n = 2 * ∫ x in (0 : ℝ)..r, x ^ (2 * n) * (Real.sqrt (R ^ 2 - x ^ 2) * Real.sqrt (r ^ 2 - x ^ 2)) := by
    rw [wInt, ← intervalIntegral.integral_add_adjacent_intervals (hcont.intervalIntegrable (-r) 0) (hcont.intervalIntegrable 0 r)]
    have h := intervalIntegral.integral_comp_neg (a := 0) (b := r)
      (fun x : ℝ => x ^ (2 * n) * (Real.sqrt (R ^ 2 - x ^ 2) * Real.sqrt (r ^ 2 - x ^ 2)))
    simp_rw [heven] at h
    rw [neg_zero] at h
    rw [← h]; ring
  rw [hhalf]
  have hsub := intervalIntegral.integral_comp_mul_deriv (a := 0) (b := Real.pi / 2) (f := fun t => r * Real.sin t)
    (f' := fun t => r * Real.cos t)
    (g := fun x : ℝ => x ^ (2 * n) * (Real.sqrt (R ^ 2 - x ^ 2) * Real.sqrt (r ^ 2 - x ^ 2)))
    (fun t _ => (Real.hasDerivAt_sin t).const_mul r) (by fun_prop) hcont
  simp only [Real.sin_zero, mul_zero, Real.sin_pi_div_two, mul_one] at hsub
  rw [← hsub, tInt, ← intervalIntegral.integral_const_mul, ← intervalIntegral.integral_const_mul]
  refine intervalIntegral.integral_congr fun t ht => ?_
  rw [Set.uIcc_of_le (by positivity)] at ht
  have hcos : 0 ≤ Real.cos t := Real.cos_nonneg_of_mem_Icc ⟨by linarith [ht.1, Real.pi_pos], ht.2⟩
  have e1 : Real.sqrt (r ^ 2 - (r * Real.sin t) ^ 2) = r * Real.cos t := by
    rw [show r ^ 2 - (r * Real.sin t) ^ 2 = (r * Real.cos t) ^ 2 by
      have := Real.sin_sq_add_cos_sq t
      linear_combination (-r ^ 2) * this, Real.sqrt_sq (by positivity)]
  have e2 : Real.sqrt (R ^ 2 - (r * Real.sin t) ^ 2) = R * dlt (r / R) t := by
    rw [dlt, show R ^ 2 - (r * Real.sin t) ^ 2 = R ^ 2 * (1 - (r / R) ^ 2 * Real.sin t ^ 2) by field_simp,
      Real.sqrt_mul (by positivity), Real.sqrt_sq hR0.le]
  simp only [Function.comp]
  rw [e1, e2]; ring

theorem zint_odd' (H : ℝ) (j : ℕ) (h : j % 2 = 1) : zint H j = 0 := zint_odd H j h

/-- Odd powers integrate to nothing. -/
theorem cyl_mon_odd (r R : ℝ) (hr : 0 < r) (hR : r ≤ R) (e a b : ℕ) (h : e % 2 = 1 ∨ a % 2 = 1 ∨ b % 2 = 1) :
    mon3 (cylC r R) e a b = 0 := by
  rw [cyl_mon_x r R hr hR]
  by_cases he : e % 2 = 1
  · simp [zint_odd _ e he]
  by_cases hb : b % 2 = 1
  · simp [zint_odd _ b hb]
  have ha : a % 2 = 1 := by tauto
  have hn := intervalIntegral.integral_comp_neg (a := -r) (b := r)
      (fun x : ℝ => x ^ a * (zint (2 * Real.sqrt (R ^ 2 - x ^ 2)) e * zint (2 * Real.sqrt (r ^ 2 - x ^ 2)) b))
  simp only [neg_neg, neg_sq, Odd.neg_pow (Nat.odd_iff.2 ha), neg_mul, intervalIntegral.integral_neg] at hn
  linarith

theorem zint_two (s : ℝ) (i : ℕ) : zint (2 * s) (2 * i) = 2 * s ^ (2 * i + 1) / (2 * i + 1) := by
  rw [zint, mul_div_cancel_left₀ _ two_ne_zero, integral_pow, Odd.neg_pow ⟨i, by ring⟩]
  push_cast; ring

theorem sqrt_odd (u : ℝ) (hu : 0 ≤ u) (i : ℕ) : Real.sqrt u ^ (2 * i + 1) = u ^ i * Real.sqrt u := by
  rw [pow_succ, pow_mul, Real.sq_sqrt hu]

theorem cyl_mon_even (r R : ℝ) (hr : 0 < r) (hR : r ≤ R) (e a b : ℕ) :
    mon3 (cylC r R) (2 * e) (2 * a) (2 * b) = 4 / ((2 * e + 1) * (2 * b + 1)) *
      ∑ i ∈ range (e + 1), ∑ j ∈ range (b + 1), (e.choose i : ℝ) * (b.choose j : ℝ) * (-1) ^ (i + j)
        * (R ^ 2) ^ (e - i) * (r ^ 2) ^ (b - j) * wInt r R (a + i + j) := by
  have hR0 : 0 < R := by linarith
  rw [cyl_mon_x r R hr hR]
  have key : ∀ x ∈ Set.uIcc (-r) r, x ^ (2 * a) * (zint (2 * Real.sqrt (R ^ 2 - x ^ 2)) (2 * e) * zint (2 * Real.sqrt (r ^ 2 - x ^ 2)) (2 * b))
      = 4 / ((2 * e + 1) * (2 * b + 1)) * ∑ i ∈ range (e + 1), ∑ j ∈ range (b + 1), ((e.choose i : ℝ) * (b.choose j : ℝ) * (-1) ^ (i + j)
        * (R ^ 2) ^ (e - i) * (r ^ 2) ^ (b - j)) * (x ^ (2 * (a + i + j)) * (Real.sqrt (R ^ 2 - x ^ 2) * Real.sqrt (r ^ 2 - x ^ 2))) := by
    intro x hx
    rw [Set.uIcc_of_le (by linarith)] at hx
    have hx2 : x ^ 2 ≤ r ^ 2 := by nlinarith [hx.1, hx.2]
    have hRr : r ^ 2 ≤ R ^ 2 := by nlinarith
    rw [zint_two, zint_two, sqrt_odd _ (by linarith), sqrt_odd _ (by linarith)]
    have b1 : (R ^ 2 - x ^ 2) ^ e = ∑ i ∈ range (e + 1), (e.choose i : ℝ) * (-1) ^ i * (R ^ 2) ^ (e - i) * x ^ (2 * i) := by
      rw [sub_eq_add_neg, add_comm, add_pow]
      refine sum_congr rfl fun i _ => ?_
      rw [neg_pow, pow_mul]; ring
    have b2 : (r ^ 2 - x ^ 2) ^ b = ∑ j ∈ range (b + 1), (b.choose j : ℝ) * (-1) ^ j * (r ^ 2) ^ (b - j) * x ^ (2 * j) := by
      rw [sub_eq_add_neg, add_comm, add_pow]
      refine sum_congr rfl fun i _ => ?_
      rw [neg_pow, pow_mul]; ring
    have hs : ∑ i ∈ range (e + 1), ∑ j ∈ range (b + 1), ((e.choose i : ℝ) * (b.choose j : ℝ) * (-1) ^ (i + j)
        * (R ^ 2) ^ (e - i) * (r ^ 2) ^ (b - j)) * (x ^ (2 * (a + i + j)) * (Real.sqrt (R ^ 2 - x ^ 2) * Real.sqrt (r ^ 2 - x ^ 2)))
        = x ^ (2 * a) * (R ^ 2 - x ^ 2) ^ e * (r ^ 2 - x ^ 2) ^ b * (Real.sqrt (R ^ 2 - x ^ 2) * Real.sqrt (r ^ 2 - x ^ 2)) := by
      rw [b1, b2, mul_assoc (x ^ (2 * a)), sum_mul_sum, mul_sum, sum_mul]
      refine sum_congr rfl fun i _ => ?_
      rw [mul_sum, sum_mul]
      refine sum_congr rfl fun j _ => ?_
      rw [show 2 * (a + i + j) = 2 * a + 2 * i + 2 * j by ring, pow_add, pow_add, pow_add]; ring
    rw [hs]
    field_simp
    ring
  rw [intervalIntegral.integral_congr key, intervalIntegral.integral_const_mul]
  congr 1
  rw [intervalIntegral.integral_finset_sum]
  swap
  · intro i _; exact Continuous.intervalIntegrable (by fun_prop) _ _
  refine sum_congr rfl fun i _ => ?_
  rw [intervalIntegral.integral_finset_sum]
  swap
  · intro i _; exact Continuous.intervalIntegrable (by fun_prop) _ _
  refine sum_congr rfl fun j _ => ?_
  rw [intervalIntegral.integral_const_mul, wInt]

end Newt.Ach
