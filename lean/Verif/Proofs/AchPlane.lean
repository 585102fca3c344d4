import Verif.Proofs.AchBase

/-! # Planar moments of low degree -/

namespace Newt

open MeasureTheory Finset Spec Qlm

/-- The complex planar moments `P m k` come from the monomial moments `M a b` by expanding
`(x - iy)^m (x^2 + y^2)^k`. -/
def Expands (P : ℕ → ℕ → ℂ) (M : ℕ → ℕ → ℂ) : Prop :=
  ∀ m k, P m k = ∑ p ∈ range (m + 1), ∑ j ∈ range (k + 1),
      (m.choose p : ℂ) * (k.choose j : ℂ) * (-Complex.I) ^ p * M (m + 2 * k - (2 * j + p)) (2 * j + p)

theorem expands_pm (B : Set (ℝ × ℝ)) (hB : IsCompact B) (M : ℕ → ℕ → ℂ)
    (h : ∀ a b, ∫ q in B, ((q.1 ^ a * q.2 ^ b : ℝ) : ℂ) = M a b) : Expands (pm B) M := by
  intro m k
  rw [pm_expand_int2 B hB]
  exact sum_congr rfl fun p _ => sum_congr rfl fun j _ => by rw [h]

theorem expands_tint (d y1 y2 : ℝ) :
    Expands (tint d y1 y2) (fun a b => ((d ^ a * ((y2 ^ (b + 1) - y1 ^ (b + 1)) / (b + 1)) : ℝ) : ℂ)) := by
  intro m k
  rw [tint]
  simp_rw [pmf_expand2]
  rw [intervalIntegral.integral_finset_sum]
  swap
  · intro p _; exact Continuous.intervalIntegrable (by fun_prop) _ _
  refine sum_congr rfl fun p _ => ?_
  rw [intervalIntegral.integral_finset_sum]
  swap
  · intro p _; exact Continuous.intervalIntegrable (by fun_prop) _ _
  refine sum_congr rfl fun j _ => ?_
  rw [intervalIntegral.integral_const_mul, intervalIntegral.integral_ofReal, intervalIntegral.integral_const_mul,
    integral_pow]

theorem pmX_00 {P M : ℕ → ℕ → ℂ} (h : Expands P M) : P 0 0 = 1 * M 0 0 := by
  have hI := Complex.I_sq
  have h3 : (-Complex.I) ^ 3 = Complex.I := by linear_combination (-Complex.I) * hI
  have h4 : (-Complex.I) ^ 4 = 1 := by linear_combination (Complex.I ^ 2 - 1) * hI
  have h5 : (-Complex.I) ^ 5 = -Complex.I := by linear_combination (-Complex.I ^ 3 + Complex.I) * hI
  have h2 : (-Complex.I) ^ 2 = -1 := by linear_combination hI
  rw [h 0 0]
  simp only [sum_range_succ, sum_range_zero, zero_add, Nat.choose, h2, h3, h4, h5, pow_zero, pow_one, Nat.reduceAdd,
    Nat.reduceMul, Nat.reduceSub]
  push_cast
  ring

theorem pmX_01 {P M : ℕ → ℕ → ℂ} (h : Expands P M) : P 0 1 = 1 * M 2 0 + 1 * M 0 2 := by
  have hI := Complex.I_sq
  have h3 : (-Complex.I) ^ 3 = Complex.I := by linear_combination (-Complex.I) * hI
  have h4 : (-Complex.I) ^ 4 = 1 := by linear_combination (Complex.I ^ 2 - 1) * hI
  have h5 : (-Complex.I) ^ 5 = -Complex.I := by linear_combination (-Complex.I ^ 3 + Complex.I) * hI
  have h2 : (-Complex.I) ^ 2 = -1 := by linear_combination hI
  rw [h 0 1]
  simp only [sum_range_succ, sum_range_zero, zero_add, Nat.choose, h2, h3, h4, h5, pow_zero, pow_one, Nat.reduceAdd,
    Nat.reduceMul, Nat.reduceSub]
  push_cast
  ring

theorem pmX_02 {P M : ℕ → ℕ → ℂ} (h : Expands P M) : P 0 2 = 1 * M 4 0 + 2 * M 2 2 + 1 * M 0 4 := by
  have hI := Complex.I_sq
  have h3 : (-Complex.I) ^ 3 = Complex.I := by linear_combination (-Complex.I) * hI
  have h4 : (-Complex.I) ^ 4 = 1 := by linear_combination (Complex.I ^ 2 - 1) * hI
  have h5 : (-Complex.I) ^ 5 = -Complex.I := by linear_combination (-Complex.I ^ 3 + Complex.I) * hI
  have h2 : (-Complex.I) ^ 2 = -1 := by linear_combination hI
  rw [h 0 2]
  simp only [sum_range_succ, sum_range_zero, zero_add, Nat.choose, h2, h3, h4, h5, pow_zero, pow_one, Nat.reduceAdd,
    Nat.reduceMul, Nat.reduceSub]
  push_cast
  ring

theorem pmX_10 {P M : ℕ → ℕ → ℂ} (h : Expands P M) : P 1 0 = 1 * M 1 0 + (-1 * Complex.I) * M 0 1 := by
  have hI := Complex.I_sq
  have h3 : (-Complex.I) ^ 3 = Complex.I := by linear_combination (-Complex.I) * hI
  have h4 : (-Complex.I) ^ 4 = 1 := by linear_combination (Complex.I ^ 2 - 1) * hI
  have h5 : (-Complex.I) ^ 5 = -Complex.I := by linear_combination (-Complex.I ^ 3 + Complex.I) * hI
  have h2 : (-Complex.I) ^ 2 = -1 := by linear_combination hI
  rw [h 1 0]
  simp only [sum_range_succ, sum_range_zero, zero_add, Nat.choose, h2, h3, h4, h5, pow_zero, pow_one, Nat.reduceAdd,
    Nat.reduceMul, Nat.reduceSub]
  push_cast
  ring

theorem pmX_11 {P M : ℕ → ℕ → ℂ} (h : Expands P M) : P 1 1 = 1 * M 3 0 + 1 * M 1 2 + (-1 * Complex.I) * M 2 1 + (-1 * Complex.I) * M 0 3 := by
  have hI := Complex.I_sq
  have h3 : (-Complex.I) ^ 3 = Complex.I := by linear_combination (-Complex.I) * hI
  have h4 : (-Complex.I) ^ 4 = 1 := by linear_combination (Complex.I ^ 2 - 1) * hI
  have h5 : (-Complex.I) ^ 5 = -Complex.I := by linear_combination (-Complex.I ^ 3 + Complex.I) * hI
  have h2 : (-Complex.I) ^ 2 = -1 := by linear_combination hI
  rw [h 1 1]
  simp only [sum_range_succ, sum_range_zero, zero_add, Nat.choose, h2, h3, h4, h5, pow_zero, pow_one, Nat.reduceAdd,
    Nat.reduceMul, Nat.reduceSub]
  push_cast
  ring

theorem pmX_12 {P M : ℕ → ℕ → ℂ} (h : Expands P M) : P 1 2 = 1 * M 5 0 + 2 * M 3 2 + 1 * M 1 4 + (-1 * Complex.I) * M 4 1 + (-2 * Complex.I) * M 2 3 + (-1 * Complex.I) * M 0 5 := by
  have hI := Complex.I_sq
  have h3 : (-Complex.I) ^ 3 = Complex.I := by linear_combination (-Complex.I) * hI
  have h4 : (-Complex.I) ^ 4 = 1 := by linear_combination (Complex.I ^ 2 - 1) * hI
  have h5 : (-Complex.I) ^ 5 = -Complex.I := by linear_combination (-Complex.I ^ 3 + Complex.I) * hI
  have h2 : (-Complex.I) ^ 2 = -1 := by linear_combination hI
  rw [h 1 2]
  simp only [sum_range_succ, sum_range_zero, zero_add, Nat.choose, h2, h3, h4, h5, pow_zero, pow_one, Nat.reduceAdd,
    Nat.reduceMul, Nat.reduceSub]
  push_cast
  ring

theorem pmX_20 {P M : ℕ → ℕ → ℂ} (h : Expands P M) : P 2 0 = 1 * M 2 0 + (-2 * Complex.I) * M 1 1 + (-1) * M 0 2 := by
  have hI := Complex.I_sq
  have h3 : (-Complex.I) ^ 3 = Complex.I := by linear_combination (-Complex.I) * hI
  have h4 : (-Complex.I) ^ 4 = 1 := by linear_combination (Complex.I ^ 2 - 1) * hI
  have h5 : (-Complex.I) ^ 5 = -Complex.I := by linear_combination (-Complex.I ^ 3 + Complex.I) * hI
  have h2 : (-Complex.I) ^ 2 = -1 := by linear_combination hI
  rw [h 2 0]
  simp only [sum_range_succ, sum_range_zero, zero_add, Nat.choose, h2, h3, h4, h5, pow_zero, pow_one, Nat.reduceAdd,
    Nat.reduceMul, Nat.reduceSub]
  push_cast
  ring

theorem pmX_21 {P M : ℕ → ℕ → ℂ} (h : Expands P M) : P 2 1 = 1 * M 4 0 + (-2 * Complex.I) * M 3 1 + (-2 * Complex.I) * M 1 3 + (-1) * M 0 4 := by
  have hI := Complex.I_sq
  have h3 : (-Complex.I) ^ 3 = Complex.I := by linear_combination (-Complex.I) * hI
  have h4 : (-Complex.I) ^ 4 = 1 := by linear_combination (Complex.I ^ 2 - 1) * hI
  have h5 : (-Complex.I) ^ 5 = -Complex.I := by linear_combination (-Complex.I ^ 3 + Complex.I) * hI
  have h2 : (-Complex.I) ^ 2 = -1 := by linear_combination hI
  rw [h 2 1]
  simp only [sum_range_succ, sum_range_zero, zero_add, Nat.choose, h2, h3, h4, h5, pow_zero, pow_one, Nat.reduceAdd,
    Nat.reduceMul, Nat.reduceSub]
  push_cast
  ring

theorem pmX_30 {P M : ℕ → ℕ → ℂ} (h : Expands P M) : P 3 0 = 1 * M 3 0 + (-3 * Complex.I) * M 2 1 + (-3) * M 1 2 + (1 * Complex.I) * M 0 3 := by
  have hI := Complex.I_sq
  have h3 : (-Complex.I) ^ 3 = Complex.I := by linear_combination (-Complex.I) * hI
  have h4 : (-Complex.I) ^ 4 = 1 := by linear_combination (Complex.I ^ 2 - 1) * hI
  have h5 : (-Complex.I) ^ 5 = -Complex.I := by linear_combination (-Complex.I ^ 3 + Complex.I) * hI
  have h2 : (-Complex.I) ^ 2 = -1 := by linear_combination hI
  rw [h 3 0]
  simp only [sum_range_succ, sum_range_zero, zero_add, Nat.choose, h2, h3, h4, h5, pow_zero, pow_one, Nat.reduceAdd,
    Nat.reduceMul, Nat.reduceSub]
  push_cast
  ring

theorem pmX_31 {P M : ℕ → ℕ → ℂ} (h : Expands P M) : P 3 1 = 1 * M 5 0 + (-2) * M 3 2 + (-3 * Complex.I) * M 4 1 + (-2 * Complex.I) * M 2 3 + (-3) * M 1 4 + (1 * Complex.I) * M 0 5 := by
  have hI := Complex.I_sq
  have h3 : (-Complex.I) ^ 3 = Complex.I := by linear_combination (-Complex.I) * hI
  have h4 : (-Complex.I) ^ 4 = 1 := by linear_combination (Complex.I ^ 2 - 1) * hI
  have h5 : (-Complex.I) ^ 5 = -Complex.I := by linear_combination (-Complex.I ^ 3 + Complex.I) * hI
  have h2 : (-Complex.I) ^ 2 = -1 := by linear_combination hI
  rw [h 3 1]
  simp only [sum_range_succ, sum_range_zero, zero_add, Nat.choose, h2, h3, h4, h5, pow_zero, pow_one, Nat.reduceAdd,
    Nat.reduceMul, Nat.reduceSub]
  push_cast
  ring

theorem pmX_40 {P M : ℕ → ℕ → ℂ} (h : Expands P M) : P 4 0 = 1 * M 4 0 + (-4 * Complex.I) * M 3 1 + (-6) * M 2 2 + (4 * Complex.I) * M 1 3 + 1 * M 0 4 := by
  have hI := Complex.I_sq
  have h3 : (-Complex.I) ^ 3 = Complex.I := by linear_combination (-Complex.I) * hI
  have h4 : (-Complex.I) ^ 4 = 1 := by linear_combination (Complex.I ^ 2 - 1) * hI
  have h5 : (-Complex.I) ^ 5 = -Complex.I := by linear_combination (-Complex.I ^ 3 + Complex.I) * hI
  have h2 : (-Complex.I) ^ 2 = -1 := by linear_combination hI
  rw [h 4 0]
  simp only [sum_range_succ, sum_range_zero, zero_add, Nat.choose, h2, h3, h4, h5, pow_zero, pow_one, Nat.reduceAdd,
    Nat.reduceMul, Nat.reduceSub]
  push_cast
  ring

theorem pmX_50 {P M : ℕ → ℕ → ℂ} (h : Expands P M) : P 5 0 = 1 * M 5 0 + (-5 * Complex.I) * M 4 1 + (-10) * M 3 2 + (10 * Complex.I) * M 2 3 + 5 * M 1 4 + (-1 * Complex.I) * M 0 5 := by
  have hI := Complex.I_sq
  have h3 : (-Complex.I) ^ 3 = Complex.I := by linear_combination (-Complex.I) * hI
  have h4 : (-Complex.I) ^ 4 = 1 := by linear_combination (Complex.I ^ 2 - 1) * hI
  have h5 : (-Complex.I) ^ 5 = -Complex.I := by linear_combination (-Complex.I ^ 3 + Complex.I) * hI
  have h2 : (-Complex.I) ^ 2 = -1 := by linear_combination hI
  rw [h 5 0]
  simp only [sum_range_succ, sum_range_zero, zero_add, Nat.choose, h2, h3, h4, h5, pow_zero, pow_one, Nat.reduceAdd,
    Nat.reduceMul, Nat.reduceSub]
  push_cast
  ring

/-! ## Rectangles and right triangles -/

theorem expands_rect (a b : ℝ) (ha : 0 < a) (hb : 0 < b) :
    Expands (pm (rectangle a b)) (fun i j => ((zint a i * zint b j : ℝ) : ℂ)) :=
  expands_pm _ (rectangle_compact a b) _ fun i j => rect_mono a b ha hb i j

theorem expands_right (x y : ℝ) (hx : 0 < x) (hy : 0 < y) :
    Expands (pm (triangle (x, 0) (0, y)))
      (fun i j => ((y ^ (j + 1) / (j + 1) * (x ^ (i + 1) * (i.factorial * (j + 1).factorial / (i + (j + 1) + 1).factorial)) : ℝ) : ℂ)) :=
  expands_pm _ (triangle_compact _ _) _ fun i j => by rw [right_mono x y hx hy, bint_eq x hx]

/-! ## Triangles with a side on `x = d` -/

theorem pm_triangle_signed (d y1 y2 : ℝ) (hd : d ≠ 0) :
    ∃ c : ℝ, c * (d * (y2 - y1)) = |d * (y1 - y2)| ∧ (∀ m k : ℕ, pm (triangle (d, y1) (d, y2)) m k
      = (c : ℂ) * (((d / ((m + 2 * k : ℕ) + 2) : ℝ) : ℂ) * tint d y1 y2 m k)) := by
  have main : ∀ (d y1 y2 : ℝ), 0 < d → ∃ c : ℝ, c * (d * (y2 - y1)) = |d * (y1 - y2)| ∧
      (∀ m k : ℕ, pm (triangle (d, y1) (d, y2)) m k
      = (c : ℂ) * (((d / ((m + 2 * k : ℕ) + 2) : ℝ) : ℂ) * tint d y1 y2 m k)) := by
    intro d y1 y2 hd
    rcases le_total y1 y2 with h | h
    · refine ⟨1, ?_, fun m k => by rw [pm_triangle_pos d y1 y2 hd h]; simp⟩
      rw [abs_mul, abs_of_pos hd, abs_of_nonpos (by linarith)]; ring
    · refine ⟨-1, ?_, fun m k => ?_⟩
      · rw [abs_mul, abs_of_pos hd, abs_of_nonneg (by linarith)]; ring
      · rw [triangle_swap, pm_triangle_pos d y2 y1 hd h, tint_swap]; push_cast; ring
  rcases lt_or_gt_of_ne hd with h | h
  · obtain ⟨c, hc, hm⟩ := main (-d) (-y1) (-y2) (by linarith)
    refine ⟨c, ?_, fun m k => ?_⟩
    · rw [show d * (y2 - y1) = -d * (-y2 - -y1) by ring, hc]; congr 1; ring
    have h2 := hm m k
    have h3 := rotated_pi (-d, -y1) (-d, -y2)
    simp only [Prod.neg_mk, neg_neg] at h3
    rw [← h3, pm_rotated, h2, tint_neg]
    have : Complex.exp (-Complex.I * m * Real.pi) = (-1) ^ m := by
      rw [show -Complex.I * m * (Real.pi : ℂ) = (m : ℕ) * (-(Real.pi * Complex.I)) by ring,
        Complex.exp_nat_mul, Complex.exp_neg, Complex.exp_pi_mul_I]; norm_num
    rw [this]
    have h4 : ((-1 : ℂ) ^ m) * (-1) ^ m = 1 := by rw [← mul_pow]; simp
    push_cast
    linear_combination (c : ℂ) * (d : ℂ) / ((m + 2 * k : ℂ) + 2) * tint d y1 y2 m k * h4
  · exact main d y1 y2 h

/-! ## Trapezoids -/

/-- `∫_0^h x^a (u + (v-u) x/h)^n dx`. -/
theorem lin_int (u v h : ℝ) (hh : h ≠ 0) (a n : ℕ) :
    ∫ x in (0 : ℝ)..h, x ^ a * (u + (v - u) * (x / h)) ^ n
      = ∑ j ∈ range (n + 1), (n.choose j : ℝ) * (v - u) ^ j * u ^ (n - j) * (h ^ (a + 1) / (a + j + 1)) := by
  have e : ∀ x : ℝ, x ^ a * (u + (v - u) * (x / h)) ^ n
      = ∑ j ∈ range (n + 1), ((n.choose j : ℝ) * (v - u) ^ j * u ^ (n - j) / h ^ j) * x ^ (a + j) := by
    intro x
    rw [add_comm u, add_pow, mul_sum]
    refine sum_congr rfl fun j _ => ?_
    rw [mul_pow, div_pow, pow_add]; ring
  simp_rw [e]
  rw [intervalIntegral.integral_finset_sum]
  swap
  · intro p _; exact Continuous.intervalIntegrable (by fun_prop) _ _
  refine sum_congr rfl fun j _ => ?_
  rw [intervalIntegral.integral_const_mul, integral_pow, zero_pow (by omega), sub_zero,
    show a + j + 1 = (a + 1) + j by ring, pow_add]
  push_cast
  have : ((a : ℝ) + j + 1) ≠ 0 := by positivity
  field_simp

theorem trap_mono (w1 w2 h : ℝ) (h1 : 0 ≤ w1) (h2 : 0 ≤ w2) (hh : 0 < h) (a b : ℕ) :
    ∫ q in trapezoid w1 w2 h, ((q.1 ^ a * q.2 ^ b : ℝ) : ℂ)
      = ((∫ x in (0 : ℝ)..h, x ^ a * zint (w1 + (w2 - w1) * (x / h)) b : ℝ) : ℂ) := by
  set T := trapezoid w1 w2 h with hT
  have hc : IsCompact T := trapezoid_compact w1 w2 h hh
  set f : ℝ × ℝ → ℝ := fun p => p.1 ^ a * p.2 ^ b with hf
  have hint : IntegrableOn f T := ContinuousOn.integrableOn_compact hc (Continuous.continuousOn (by fun_prop))
  rw [integral_complex_ofReal]
  congr 1
  rw [← integral_indicator hc.measurableSet]
  have hint2 : Integrable (T.indicator f) := (integrable_indicator_iff hc.measurableSet).2 hint
  rw [Measure.volume_eq_prod] at hint2 ⊢
  rw [integral_prod _ hint2]
  have key : ∀ x : ℝ, ∫ y : ℝ, T.indicator f (x, y)
      = (Set.Icc (0 : ℝ) h).indicator (fun x => x ^ a * zint (w1 + (w2 - w1) * (x / h)) b) x := by
    intro x
    by_cases hx : x ∈ Set.Icc (0 : ℝ) h
    · rw [Set.indicator_of_mem hx]
      have hw : 0 ≤ w1 + (w2 - w1) * (x / h) := by
        have e1 : 0 ≤ x / h := div_nonneg hx.1 hh.le
        have e2 : x / h ≤ 1 := (div_le_one hh).2 hx.2
        nlinarith
      set w := w1 + (w2 - w1) * (x / h) with hwd
      have : ∀ y : ℝ, T.indicator f (x, y) = (Set.Icc (-(w / 2)) (w / 2)).indicator (fun y => x ^ a * y ^ b) y := by
        intro y
        have hm : (x, y) ∈ T ↔ y ∈ Set.Icc (-(w / 2)) (w / 2) := by
          rw [hT]
          simp only [Spec.trapezoid, Set.mem_setOf_eq, Set.mem_Icc, ← abs_le]
          exact ⟨fun q => q.2.2, fun q => ⟨hx.1, hx.2, q⟩⟩
        by_cases hy : (x, y) ∈ T
        · rw [Set.indicator_of_mem hy, Set.indicator_of_mem (hm.1 hy)]
        · rw [Set.indicator_of_notMem hy, Set.indicator_of_notMem (fun q => hy (hm.2 q))]
      simp_rw [this]
      rw [integral_indicator measurableSet_Icc, integral_const_mul, integral_Icc_eq_integral_Ioc,
        ← intervalIntegral.integral_of_le (by linarith), zint]
    · rw [Set.indicator_of_notMem hx]
      have : ∀ y : ℝ, T.indicator f (x, y) = 0 := by
        intro y
        refine Set.indicator_of_notMem (fun q => hx ?_) _
        exact ⟨q.1, q.2.1⟩
      simp [this]
  simp_rw [key]
  rw [integral_indicator measurableSet_Icc, integral_Icc_eq_integral_Ioc, ← intervalIntegral.integral_of_le hh.le]

theorem expands_trap (w1 w2 h : ℝ) (h1 : 0 ≤ w1) (h2 : 0 ≤ w2) (hh : 0 < h) :
    Expands (pm (trapezoid w1 w2 h))
      (fun a b => ((∫ x in (0 : ℝ)..h, x ^ a * zint (w1 + (w2 - w1) * (x / h)) b : ℝ) : ℂ)) :=
  expands_pm _ (trapezoid_compact w1 w2 h hh) _ fun a b => trap_mono w1 w2 h h1 h2 hh a b

/-- The monomial moments of the trapezoid in closed form. -/
noncomputable def trapM (w1 w2 h : ℝ) (a b : ℕ) : ℝ :=
  if b % 2 = 1 then 0 else 1 / (2 ^ b * (b + 1)) * ∑ j ∈ range (b + 2), ((b + 1).choose j : ℝ) * (w2 - w1) ^ j * w1 ^ (b + 1 - j)
    * (h ^ (a + 1) / (a + j + 1))

theorem expands_trap2 (w1 w2 h : ℝ) (h1 : 0 ≤ w1) (h2 : 0 ≤ w2) (hh : 0 < h) :
    Expands (pm (trapezoid w1 w2 h)) (fun a b => ((trapM w1 w2 h a b : ℝ) : ℂ)) := by
  refine expands_pm _ (trapezoid_compact w1 w2 h hh) _ fun a b => ?_
  rw [trap_mono w1 w2 h h1 h2 hh a b, trapM]
  congr 1
  split_ifs with hb
  · simp [zint_odd _ b hb]
  · simp_rw [zint_even _ b (by omega)]
    rw [show b + 2 = (b + 1) + 1 by ring, ← lin_int w1 w2 h hh.ne', ← intervalIntegral.integral_const_mul]
    refine intervalIntegral.integral_congr fun x _ => ?_
    rw [div_pow, pow_succ (2 : ℝ)]
    have : (b : ℝ) + 1 ≠ 0 := by positivity
    field_simp

/-! ## Annular sectors -/

theorem pm_sec0 (Ri Ro phic phih : ℝ) (hRi : 0 ≤ Ri) (hRo : Ri ≤ Ro) (h0 : 0 ≤ phih) (hh : phih ≤ Real.pi) (k : ℕ) :
    pm (sector Ri Ro phic phih) 0 k
      = (((Ro ^ (2 * k + 2) - Ri ^ (2 * k + 2)) / (2 * k + 2) * (2 * phih) : ℝ) : ℂ) := by
  rw [pm_sector Ri Ro phic phih hRi hRo h0 hh, Qlm.phase]
  simp [Qlm.sinc]

theorem pm_sec (Ri Ro phic phih : ℝ) (hRi : 0 ≤ Ri) (hRo : Ri ≤ Ro) (h0 : 0 ≤ phih) (hh : phih ≤ Real.pi) (m k : ℕ)
    (hm : m ≠ 0) : pm (sector Ri Ro phic phih) m k
      = (((Ro ^ (m + 2 * k + 2) - Ri ^ (m + 2 * k + 2)) / (m + 2 * k + 2) * (2 * Real.sin (m * phih) / m) : ℝ) : ℂ)
        * Complex.exp (-Complex.I * phic) ^ m := by
  rw [pm_sector Ri Ro phic phih hRi hRo h0 hh, Qlm.phase, ← Complex.exp_nat_mul]
  have e : 2 * phih * Qlm.sinc (m * phih) = 2 * Real.sin (m * phih) / m := by
    have hm' : (m : ℝ) ≠ 0 := by exact_mod_cast hm
    rcases h0.eq_or_lt with rfl | hp
    · simp
    · rw [Qlm.sinc, if_neg (by positivity)]; field_simp
  rw [e, show (m : ℂ) * (-Complex.I * phic) = -Complex.I * m * phic by ring]
  push_cast; ring

/-! ## Circular segments -/

theorem sin_2p (p : ℝ) : Real.sin (2 * p) = 2 * Real.sin p * Real.cos p := Real.sin_two_mul p
theorem sin_3p (p : ℝ) : Real.sin (3 * p) = 3 * Real.sin p - 4 * Real.sin p ^ 3 := Real.sin_three_mul p
theorem sin_4p (p : ℝ) : Real.sin (4 * p) = 4 * Real.sin p * Real.cos p * (2 * Real.cos p ^ 2 - 1) := by
  rw [show 4 * p = 2 * (2 * p) by ring, Real.sin_two_mul, Real.sin_two_mul, Real.cos_two_mul]; ring
theorem sin_5p (p : ℝ) : Real.sin (5 * p) = 16 * Real.sin p ^ 5 - 20 * Real.sin p ^ 3 + 5 * Real.sin p := by
  have h := Real.sin_sq_add_cos_sq p
  have hc : Real.cos p ^ 2 = 1 - Real.sin p ^ 2 := by linarith
  rw [show 5 * p = 4 * p + p by ring, Real.sin_add, sin_4p, show 4 * p = 2 * (2 * p) by ring, Real.cos_two_mul,
    Real.cos_two_mul]
  have e : 4 * Real.sin p * Real.cos p * (2 * Real.cos p ^ 2 - 1) * Real.cos p
      + (2 * (2 * Real.cos p ^ 2 - 1) ^ 2 - 1) * Real.sin p
      = 4 * Real.sin p * (2 * Real.cos p ^ 2 - 1) * Real.cos p ^ 2
      + (2 * (2 * Real.cos p ^ 2 - 1) ^ 2 - 1) * Real.sin p := by ring
  rw [e, hc]; ring

theorem plane_of_prism (A B C : Set (ℝ × ℝ)) (h : prism 1 A = prism 1 B ∪ prism 1 C) : A = B ∪ C := by
  ext ⟨x, y⟩
  have := Set.ext_iff.1 h ![x, y, 0]
  simp only [prism, Set.mem_setOf_eq, Set.mem_union, Matrix.cons_val_zero, Matrix.cons_val_one, Matrix.cons_val] at this
  norm_num at this
  exact this

theorem vline_null (d : ℝ) : volume {q : ℝ × ℝ | q.1 = d} = 0 := by
  have : {q : ℝ × ℝ | q.1 = d} = {d} ×ˢ Set.univ := by ext q; simp
  rw [this, Measure.volume_eq_prod, Measure.prod_prod]; simp

theorem pm_seg (r p : ℝ) (hr : 0 < r) (hp0 : 0 < p) (hp2 : p < Real.pi / 2) (m k : ℕ) :
    pm (segment r (r * Real.cos p)) m k = pm (sector 0 r 0 p) m k
      - ((r * Real.cos p / ((m + 2 * k : ℕ) + 2) : ℝ) : ℂ) * tint (r * Real.cos p) (-(r * Real.sin p)) (r * Real.sin p) m k := by
  have hc : 0 < Real.cos p := Real.cos_pos_of_mem_Ioo ⟨by linarith, hp2⟩
  have hs : 0 < Real.sin p := Real.sin_pos_of_pos_of_lt_pi hp0 (by linarith)
  have hc1 : Real.cos p < 1 := by
    have := Real.cos_lt_cos_of_nonneg_of_le_pi_div_two (le_refl 0) hp2.le hp0
    simpa using this
  have hd : 0 < r * Real.cos p := by positivity
  have hq : r * Real.cos p / r = Real.cos p := by field_simp
  have hsp := sector_split r (r * Real.cos p) 1 hd (by nlinarith)
  rw [hq, Real.arccos_cos hp0.le (by linarith), zero_sub, zero_add, Real.cos_neg, Real.sin_neg,
    mul_neg] at hsp
  have hU := plane_of_prism _ _ _ hsp
  set T := triangle (r * Real.cos p, -(r * Real.sin p)) (r * Real.cos p, r * Real.sin p) with hT
  have hmem : ∀ q ∈ T, q.1 ≤ r * Real.cos p := by
    rintro ⟨x, y⟩ hq
    have e : T = triangle (r * Real.cos p, -(2 * (r * Real.sin p) / 2)) (r * Real.cos p, 2 * (r * Real.sin p) / 2) := by
      rw [hT]; congr 2 <;> ring
    rw [e, mem_iso _ _ _ _ hd (by positivity)] at hq
    exact hq.2.1
  have hdis : AEDisjoint volume T (segment r (r * Real.cos p)) := by
    refine measure_mono_null ?_ (vline_null (r * Real.cos p))
    rintro q ⟨h1, h2⟩
    exact le_antisymm (hmem q h1) h2.1
  have hTc : IsCompact T := triangle_compact _ _
  have hSc : IsCompact (segment r (r * Real.cos p)) := segment_compact _ _ hr.le
  have h := integral_union_ae (f := pmf m k) hdis hSc.measurableSet.nullMeasurableSet
    ((pmf_continuous m k).continuousOn.integrableOn_compact hTc)
    ((pmf_continuous m k).continuousOn.integrableOn_compact hSc)
  rw [← hU] at h
  rw [pm, pm, h, ← pm_triangle_pos _ _ _ hd (by nlinarith [mul_pos hr hs]), pm]
  ring

end Newt
