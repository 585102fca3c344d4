import Verif.Proofs.AchCylInt
import Mathlib.Analysis.Analytic.Binomial

/-! # The three integrals of the drilled cylinder as hypergeometric functions -/

namespace Newt.Ach

open MeasureTheory Finset

/-- `∫ sin^(2i) cos^2` over a quarter period. -/
noncomputable def bInt (i : ℕ) : ℝ := ∫ t in (0 : ℝ)..(Real.pi / 2), Real.sin t ^ (2 * i) * Real.cos t ^ 2

theorem bInt_zero : bInt 0 = Real.pi / 4 := by
  simp [bInt, integral_cos_sq]
  ring

theorem bInt_succ (i : ℕ) : bInt (i + 1) = bInt i * ((1 / 2 + i) / (2 + i)) := by
  have hder : ∀ t : ℝ, HasDerivAt (fun t => Real.sin t ^ (2 * i + 1) * Real.cos t ^ 3)
      ((2 * i + 1) * (Real.sin t ^ (2 * i) * Real.cos t ^ 2) - (2 * i + 4) * (Real.sin t ^ (2 * (i + 1)) * Real.cos t ^ 2)) t := by
    intro t
    have h := ((Real.hasDerivAt_sin t).pow (2 * i + 1)).mul ((Real.hasDerivAt_cos t).pow 3)
    refine h.congr_deriv ?_
    have hc := Real.sin_sq_add_cos_sq t
    simp only [Pi.pow_apply, Nat.add_sub_cancel]
    rw [show 2 * (i + 1) = 2 * i + 2 by ring, pow_add, pow_succ]
    push_cast
    linear_combination ((2 * i + 1) * Real.sin t ^ (2 * i) * Real.cos t ^ 2) * hc
  have i1 : IntervalIntegrable (fun t => Real.sin t ^ (2 * i) * Real.cos t ^ 2) volume 0 (Real.pi / 2) :=
    Continuous.intervalIntegrable (by fun_prop) _ _
  have i2 : IntervalIntegrable (fun t => Real.sin t ^ (2 * (i + 1)) * Real.cos t ^ 2) volume 0 (Real.pi / 2) :=
    Continuous.intervalIntegrable (by fun_prop) _ _
  have hint := intervalIntegral.integral_eq_sub_of_hasDerivAt (a := 0) (b := Real.pi / 2) (fun t _ => hder t)
    ((i1.const_mul _).sub (i2.const_mul _))
  rw [intervalIntegral.integral_sub (i1.const_mul _) (i2.const_mul _), intervalIntegral.integral_const_mul,
    intervalIntegral.integral_const_mul, ← bInt, ← bInt] at hint
  simp at hint
  have : (2 : ℝ) + i ≠ 0 := by positivity
  field_simp
  linarith

theorem asc_ne (c : ℝ) (hc : 0 < c) (n : ℕ) : 0 < (ascPochhammer ℝ n).eval c := ascPochhammer_pos n c hc

theorem asc_shift (a : ℝ) (n j : ℕ) :
    (ascPochhammer ℝ (n + j)).eval a = (ascPochhammer ℝ n).eval a * (ascPochhammer ℝ j).eval (a + n) := by
  rw [← ascPochhammer_mul, Polynomial.eval_mul, Polynomial.eval_comp]
  simp

theorem bInt_eq (i : ℕ) :
    bInt i = Real.pi / 4 * ((ascPochhammer ℝ i).eval (1 / 2) / (ascPochhammer ℝ i).eval 2) := by
  induction i with
  | zero => simp [bInt_zero]
  | succ i ih =>
    rw [bInt_succ, ih, ascPochhammer_succ_eval, ascPochhammer_succ_eval]
    have := (asc_ne 2 (by norm_num) i).ne'
    have : (2 : ℝ) + i ≠ 0 := by positivity
    field_simp

theorem bInt_shift (n j : ℕ) :
    bInt (n + j) = bInt n * ((ascPochhammer ℝ j).eval (1 / 2 + (n : ℝ)) / (ascPochhammer ℝ j).eval (2 + (n : ℝ))) := by
  rw [bInt_eq, bInt_eq, asc_shift, asc_shift]
  have := (asc_ne 2 (by norm_num) n).ne'
  have := (asc_ne (2 + (n : ℝ)) (by positivity) j).ne'
  field_simp

/-- The coefficients of `sqrt (1 - u)`. -/
noncomputable def sq (n : ℕ) : ℝ := ((n.factorial : ℝ))⁻¹ * (ascPochhammer ℝ n).eval (-(1 / 2))

theorem sq_zero : sq 0 = 1 := by simp [sq]

theorem asc_neg (n : ℕ) : (ascPochhammer ℝ (n + 1)).eval (-(1 / 2) : ℝ) ≤ 0 := by
  induction n with
  | zero => norm_num
  | succ n ih =>
    rw [ascPochhammer_succ_eval]
    refine mul_nonpos_of_nonpos_of_nonneg ih ?_
    push_cast
    have : (0 : ℝ) ≤ n := n.cast_nonneg
    linarith

theorem sq_neg (n : ℕ) : sq (n + 1) ≤ 0 := by
  rw [sq]
  exact mul_nonpos_of_nonneg_of_nonpos (by positivity) (asc_neg n)

theorem sqrt_hasSum (u : ℝ) (h : |u| < 1) : HasSum (fun n => sq n * u ^ n) (Real.sqrt (1 - u)) := by
  have hp := Real.one_add_rpow_hasFPowerSeriesOnBall_zero (a := 1 / 2)
  have hs := hp.hasSum (y := -u) (by
    rw [Metric.mem_eball, edist_zero_right, enorm_neg]
    rw [← ofReal_norm_eq_enorm, ENNReal.ofReal_lt_one]
    exact h)
  rw [zero_add, ← sub_eq_add_neg, ← Real.sqrt_eq_rpow,
    binomialSeries_eq_ordinaryHypergeometricSeries (b := (1 : ℝ)) (by intro k; have : (0 : ℝ) ≤ k := k.cast_nonneg; linarith)] at hs
  have hfun : (fun n => sq n * u ^ n) = fun n => (ordinaryHypergeometricSeries ℝ (-(1 / 2)) (1 : ℝ) 1).compContinuousLinearMap
      (-ContinuousLinearMap.id ℝ ℝ) n fun _ => -u := by
    funext n
    rw [FormalMultilinearSeries.compContinuousLinearMap_apply]
    have : ((-ContinuousLinearMap.id ℝ ℝ : ℝ →L[ℝ] ℝ) ∘ fun _ : Fin n => -u) = fun _ => u := by
      ext i; simp
    rw [this, ordinaryHypergeometricSeries_apply_eq]
    have h1 := (asc_ne 1 (by norm_num) n).ne'
    rw [sq, smul_eq_mul]
    field_simp
  rw [hfun]
  exact hs

/-- The coefficients are absolutely summable. -/
theorem sq_summable : Summable fun n => |sq n| := by
  rw [← summable_nat_add_iff 1]
  have habs : ∀ n, |sq (n + 1)| = -sq (n + 1) := fun n => abs_of_nonpos (sq_neg n)
  simp_rw [habs]
  refine summable_of_sum_range_le (c := 1) (fun n => neg_nonneg.2 (sq_neg n)) fun N => ?_
  have hx : ∀ x : ℝ, 0 ≤ x → x < 1 → ∑ n ∈ range N, -sq (n + 1) * x ^ (n + 1) ≤ 1 := by
    intro x h0 h1
    have hs := sqrt_hasSum x (by rw [abs_of_nonneg h0]; exact h1)
    have hs1 := (hasSum_nat_add_iff' 1).2 hs
    rw [sum_range_one, sq_zero, pow_zero, mul_one] at hs1
    have hs2 := hs1.neg
    have hle := sum_le_hasSum (range N) (fun n _ => by
      rw [neg_nonneg]
      exact mul_nonpos_of_nonpos_of_nonneg (sq_neg n) (by positivity)) hs2
    have : ∑ n ∈ range N, -sq (n + 1) * x ^ (n + 1) = ∑ i ∈ range N, -(sq (i + 1) * x ^ (i + 1)) :=
      sum_congr rfl fun i _ => by ring
    rw [this]
    have := Real.sqrt_nonneg (1 - x)
    linarith
  have hc : Continuous fun x : ℝ => ∑ n ∈ range N, -sq (n + 1) * x ^ (n + 1) := by fun_prop
  have hlim : Filter.Tendsto (fun x : ℝ => ∑ n ∈ range N, -sq (n + 1) * x ^ (n + 1)) (nhdsWithin 1 (Set.Iio 1))
      (nhds (∑ n ∈ range N, -sq (n + 1) * 1 ^ (n + 1))) := (hc.tendsto 1).mono_left nhdsWithin_le_nhds
  simp only [one_pow, mul_one] at hlim
  refine le_of_tendsto hlim ?_
  filter_upwards [Ioo_mem_nhdsLT (show (0 : ℝ) < 1 by norm_num)] with x hx'
  exact hx x hx'.1.le hx'.2

theorem tInt_hasSum (k : ℝ) (h0 : 0 < k) (h1 : k ≤ 1) (n : ℕ) :
    HasSum (fun j => sq j * (k ^ 2) ^ j * bInt (n + j)) (tInt k n) := by
  have hk2 : k ^ 2 ≤ 1 := by nlinarith
  have key := intervalIntegral.hasSum_integral_of_dominated_convergence (μ := volume) (a := 0) (b := Real.pi / 2)
    (F := fun j t => sq j * (k ^ 2) ^ j * (Real.sin t ^ (2 * (n + j)) * Real.cos t ^ 2))
    (f := fun t => Real.sin t ^ (2 * n) * Real.cos t ^ 2 * dlt k t) (fun j _ => |sq j|)
    (fun j => Continuous.aestronglyMeasurable (by fun_prop))
    (fun j => Filter.Eventually.of_forall fun t _ => by
      rw [norm_mul, norm_mul, Real.norm_eq_abs, Real.norm_eq_abs, Real.norm_eq_abs]
      have a1 : |(k ^ 2) ^ j| ≤ 1 := by
        rw [abs_of_nonneg (by positivity)]
        exact pow_le_one₀ (by positivity) hk2
      have a2 : |Real.sin t ^ (2 * (n + j)) * Real.cos t ^ 2| ≤ 1 := by
        rw [abs_mul, abs_pow, abs_pow]
        exact mul_le_one₀ (pow_le_one₀ (abs_nonneg _) (Real.abs_sin_le_one t)) (by positivity)
          (pow_le_one₀ (abs_nonneg _) (Real.abs_cos_le_one t))
      have := abs_nonneg (sq j)
      calc |sq j| * |(k ^ 2) ^ j| * |Real.sin t ^ (2 * (n + j)) * Real.cos t ^ 2|
          ≤ |sq j| * 1 * 1 := by gcongr
        _ = |sq j| := by ring)
    (Filter.Eventually.of_forall fun _ _ => sq_summable)
    intervalIntegrable_const
    (Filter.Eventually.of_forall fun t ht => by
      rw [Set.uIoc_of_le (by positivity)] at ht
      rcases ht.2.lt_or_eq with hlt | heq
      · have hs0 : 0 < Real.sin t := Real.sin_pos_of_pos_of_lt_pi ht.1 (by linarith [Real.pi_pos])
        have hc0 : 0 < Real.cos t := Real.cos_pos_of_mem_Ioo ⟨by linarith [ht.1, Real.pi_pos], hlt⟩
        have hs1 : Real.sin t ^ 2 < 1 := by nlinarith [Real.sin_sq_add_cos_sq t]
        have hu : |k ^ 2 * Real.sin t ^ 2| < 1 := by
          rw [abs_of_nonneg (by positivity)]
          nlinarith [sq_nonneg (Real.sin t)]
        have hS := (sqrt_hasSum _ hu).mul_left (Real.sin t ^ (2 * n) * Real.cos t ^ 2)
        rw [dlt]
        refine (congrArg (fun F => HasSum F _) (funext fun j => ?_)).mp hS
        rw [mul_pow, ← pow_mul (Real.sin t), show 2 * (n + j) = 2 * n + 2 * j by ring, pow_add]; ring
      · rw [heq]
        simp [hasSum_zero])
  rw [tInt]
  refine (congrArg (fun F => HasSum F _) (funext fun j => ?_)).mp key
  rw [intervalIntegral.integral_const_mul, bInt]

theorem tInt_hyp (k : ℝ) (h0 : 0 < k) (h1 : k ≤ 1) (n : ℕ) :
    tInt k n = bInt n * QlmACH.hyp2f1 (-(1 / 2)) (1 / 2 + n) (2 + n) (k ^ 2) := by
  rw [QlmACH.hyp2f1, ordinaryHypergeometric, ordinaryHypergeometric_sum_eq, ← (tInt_hasSum k h0 h1 n).tsum_eq, ← tsum_mul_left]
  refine tsum_congr fun j => ?_
  rw [bInt_shift, sq, smul_eq_mul]
  ring

end Newt.Ach
