import Verif.Proofs.AchSolid
import Verif.Model.QlmACHole

/-! # The hole drilled into a cylinder: monomial integrals as elliptic integrals -/

namespace Newt.Ach

open MeasureTheory Finset Spec

/-- `sqrt (1 - k^2 sin^2 t)`. -/
noncomputable def dlt (k t : ℝ) : ℝ := Real.sqrt (1 - k ^ 2 * Real.sin t ^ 2)

/-- `∫ sin^(2n) cos^2 sqrt (1 - k^2 sin^2)` over a quarter period. -/
noncomputable def tInt (k : ℝ) (n : ℕ) : ℝ :=
  ∫ t in (0 : ℝ)..(Real.pi / 2), Real.sin t ^ (2 * n) * Real.cos t ^ 2 * dlt k t

/-- `∫ sin^(2n) / sqrt (1 - k^2 sin^2)` over a quarter period. -/
noncomputable def aInt (k : ℝ) (n : ℕ) : ℝ :=
  ∫ t in (0 : ℝ)..(Real.pi / 2), Real.sin t ^ (2 * n) / dlt k t

theorem dlt_sq (k t : ℝ) (h0 : 0 < k) (h1 : k < 1) : 0 < 1 - k ^ 2 * Real.sin t ^ 2 := by
  have h := Real.sin_sq_le_one t
  have h2 : k ^ 2 < 1 := by nlinarith
  nlinarith [sq_nonneg (Real.sin t), sq_nonneg k]

theorem dlt_pos (k t : ℝ) (h0 : 0 < k) (h1 : k < 1) : 0 < dlt k t := Real.sqrt_pos.2 (dlt_sq k t h0 h1)

theorem dlt_cont (k : ℝ) : Continuous (dlt k) := by unfold dlt; fun_prop

theorem aInt_ii (k : ℝ) (h0 : 0 < k) (h1 : k < 1) (n : ℕ) (a b : ℝ) :
    IntervalIntegrable (fun t => Real.sin t ^ (2 * n) / dlt k t) volume a b :=
  Continuous.intervalIntegrable ((Real.continuous_sin.pow _).div (dlt_cont k) fun t => (dlt_pos k t h0 h1).ne') a b

theorem ellipk_eq (k : ℝ) : QlmACH.ellipk (k ^ 2) = aInt k 0 := by simp [QlmACH.ellipk, aInt, dlt]

theorem ellipe_eq (k : ℝ) (h0 : 0 < k) (h1 : k < 1) : QlmACH.ellipe (k ^ 2) = aInt k 0 - k ^ 2 * aInt k 1 := by
  rw [QlmACH.ellipe, aInt, aInt, ← intervalIntegral.integral_const_mul, ← intervalIntegral.integral_sub
    (aInt_ii k h0 h1 0 _ _) ((aInt_ii k h0 h1 1 _ _).const_mul _)]
  refine intervalIntegral.integral_congr fun t _ => ?_
  have hp := dlt_pos k t h0 h1
  have hs : dlt k t ^ 2 = 1 - k ^ 2 * Real.sin t ^ 2 := Real.sq_sqrt (dlt_sq k t h0 h1).le
  change dlt k t = _
  field_simp
  rw [hs]; ring

theorem tInt_eq (k : ℝ) (h0 : 0 < k) (h1 : k < 1) (n : ℕ) :
    tInt k n = aInt k n - (1 + k ^ 2) * aInt k (n + 1) + k ^ 2 * aInt k (n + 2) := by
  rw [tInt, aInt, aInt, aInt, ← intervalIntegral.integral_const_mul, ← intervalIntegral.integral_const_mul,
    ← intervalIntegral.integral_sub (aInt_ii k h0 h1 n _ _) ((aInt_ii k h0 h1 (n + 1) _ _).const_mul _),
    ← intervalIntegral.integral_add ((aInt_ii k h0 h1 n _ _).sub ((aInt_ii k h0 h1 (n + 1) _ _).const_mul _))
      ((aInt_ii k h0 h1 (n + 2) _ _).const_mul _)]
  refine intervalIntegral.integral_congr fun t _ => ?_
  have hp := dlt_pos k t h0 h1
  have hs : dlt k t ^ 2 = 1 - k ^ 2 * Real.sin t ^ 2 := Real.sq_sqrt (dlt_sq k t h0 h1).le
  have hc : Real.cos t ^ 2 = 1 - Real.sin t ^ 2 := by have := Real.sin_sq_add_cos_sq t; linarith
  rw [hc, show 2 * (n + 1) = 2 * n + 2 by ring, show 2 * (n + 2) = 2 * n + 4 by ring, pow_add, pow_add]
  field_simp
  rw [hs]; ring

/-- The classical recurrence. -/
theorem aInt_rec (k : ℝ) (h0 : 0 < k) (h1 : k < 1) (n : ℕ) :
    (2 * n + 3) * k ^ 2 * aInt k (n + 2) = (2 * n + 2) * (1 + k ^ 2) * aInt k (n + 1) - (2 * n + 1) * aInt k n := by
  have hder : ∀ t : ℝ, HasDerivAt (fun t => Real.sin t ^ (2 * n + 1) * Real.cos t * dlt k t)
      ((2 * n + 1) * (Real.sin t ^ (2 * n) / dlt k t) - (2 * n + 2) * (1 + k ^ 2) * (Real.sin t ^ (2 * (n + 1)) / dlt k t)
        + (2 * n + 3) * k ^ 2 * (Real.sin t ^ (2 * (n + 2)) / dlt k t)) t := by
    intro t
    have hp := dlt_pos k t h0 h1
    have hs : dlt k t ^ 2 = 1 - k ^ 2 * Real.sin t ^ 2 := Real.sq_sqrt (dlt_sq k t h0 h1).le
    have hd : HasDerivAt (dlt k) ((-(k ^ 2 * (2 * Real.sin t * Real.cos t))) / (2 * dlt k t)) t := by
      unfold dlt
      refine HasDerivAt.sqrt ?_ (dlt_sq k t h0 h1).ne'
      have := ((Real.hasDerivAt_sin t).pow 2).const_mul (k ^ 2) |>.const_sub 1
      refine this.congr_deriv ?_
      simp
    have h := (((Real.hasDerivAt_sin t).pow (2 * n + 1)).mul (Real.hasDerivAt_cos t)).mul hd
    refine h.congr_deriv ?_
    have hc : Real.cos t ^ 2 = 1 - Real.sin t ^ 2 := by have := Real.sin_sq_add_cos_sq t; linarith
    simp only [Pi.mul_apply, Pi.pow_apply, Nat.add_sub_cancel]
    rw [show 2 * (n + 1) = 2 * n + 2 by ring, show 2 * (n + 2) = 2 * n + 4 by ring, pow_add, pow_add, pow_succ]
    push_cast
    field_simp
    generalize Real.cos t = C at *
    generalize dlt k t = d at *
    generalize Real.sin t = s at *
    linear_combination s ^ (2 * n) * ((2 * n + 1) * d ^ 2 - k ^ 2 * s ^ 2) * hc + s ^ (2 * n) * ((2 * n + 1) * (1 - s ^ 2) - s ^ 2) * hs
  have hint := intervalIntegral.integral_eq_sub_of_hasDerivAt (a := 0) (b := Real.pi / 2) (fun t _ => hder t)
    (((aInt_ii k h0 h1 n _ _).const_mul _).sub ((aInt_ii k h0 h1 (n + 1) _ _).const_mul _) |>.add
      ((aInt_ii k h0 h1 (n + 2) _ _).const_mul _))
  rw [intervalIntegral.integral_add (((aInt_ii k h0 h1 n _ _).const_mul _).sub ((aInt_ii k h0 h1 (n + 1) _ _).const_mul _))
      ((aInt_ii k h0 h1 (n + 2) _ _).const_mul _), intervalIntegral.integral_sub ((aInt_ii k h0 h1 n _ _).const_mul _)
      ((aInt_ii k h0 h1 (n + 1) _ _).const_mul _), intervalIntegral.integral_const_mul, intervalIntegral.integral_const_mul,
      intervalIntegral.integral_const_mul] at hint
  simp only [Real.cos_pi_div_two, Real.sin_zero, mul_zero, zero_mul, ne_eq, Nat.add_eq_zero_iff, one_ne_zero, and_false,
    not_false_eq_true, zero_pow, sub_zero] at hint
  rw [← aInt, ← aInt, ← aInt] at hint
  linarith

theorem dlt_one (t : ℝ) (h : t ∈ Set.uIcc 0 (Real.pi / 2)) : dlt 1 t = Real.cos t := by
  rw [Set.uIcc_of_le (by positivity)] at h
  have hc : (1 : ℝ) - 1 ^ 2 * Real.sin t ^ 2 = Real.cos t ^ 2 := by have := Real.sin_sq_add_cos_sq t; linarith
  rw [dlt, hc, Real.sqrt_sq (Real.cos_nonneg_of_mem_Icc ⟨by linarith [h.1, Real.pi_pos], h.2⟩)]

theorem tInt_one (n : ℕ) : tInt 1 n = 1 / (2 * n + 1) - 1 / (2 * n + 3) := by
  have : ∀ t ∈ Set.uIcc (0 : ℝ) (Real.pi / 2), Real.sin t ^ (2 * n) * Real.cos t ^ 2 * dlt 1 t
      = Real.sin t ^ (2 * n) * Real.cos t - Real.sin t ^ (2 * n + 2) * Real.cos t := by
    intro t ht
    rw [dlt_one t ht]
    have hc : Real.cos t ^ 2 = 1 - Real.sin t ^ 2 := by have := Real.sin_sq_add_cos_sq t; linarith
    rw [hc, pow_add]; ring
  rw [tInt, intervalIntegral.integral_congr this]
  have hder : ∀ t : ℝ, HasDerivAt (fun t => Real.sin t ^ (2 * n + 1) / (2 * n + 1) - Real.sin t ^ (2 * n + 3) / (2 * n + 3))
      (Real.sin t ^ (2 * n) * Real.cos t - Real.sin t ^ (2 * n + 2) * Real.cos t) t := by
    intro t
    have h := (((Real.hasDerivAt_sin t).pow (2 * n + 1)).div_const (2 * (n : ℝ) + 1)).sub
      (((Real.hasDerivAt_sin t).pow (2 * n + 3)).div_const (2 * (n : ℝ) + 3))
    refine h.congr_deriv ?_
    have a1 : (2 * (n : ℝ) + 1) ≠ 0 := by positivity
    have a2 : (2 * (n : ℝ) + 3) ≠ 0 := by positivity
    rw [show 2 * n + 1 - 1 = 2 * n by omega, show 2 * n + 3 - 1 = 2 * n + 2 by omega]
    push_cast
    field_simp
  rw [intervalIntegral.integral_eq_sub_of_hasDerivAt (fun t _ => hder t)
    (Continuous.intervalIntegrable (by fun_prop) _ _)]
  simp

/-- The complete elliptic integrals as `cylhole2` picks them. -/
theorem tInt_ell (k E K : ℝ) (h0 : 0 < k) (h1 : k ≤ 1)
    (hE : E = if k = 1 then 1 else QlmACH.ellipe (k ^ 2)) (hK : K = if k = 1 then 0 else QlmACH.ellipk (k ^ 2)) :
    tInt k 0 * (3 * k ^ 2) = (1 + k ^ 2) * E - (1 - k ^ 2) * K
    ∧ tInt k 1 * (15 * k ^ 4) = 2 * (1 - k ^ 2 + k ^ 4) * E - (1 - k ^ 2) * (2 - k ^ 2) * K
    ∧ tInt k 2 * (105 * k ^ 6) = (8 - 5 * k ^ 2 - 5 * k ^ 4 + 8 * k ^ 6) * E - (1 - k ^ 2) * (8 - k ^ 2 - 4 * k ^ 4) * K := by
  by_cases hk : k = 1
  · subst hk
    rw [if_pos rfl] at hE hK
    subst hE hK
    simp only [tInt_one]
    norm_num
  · rw [if_neg hk] at hE hK
    have hk1 : k < 1 := lt_of_le_of_ne h1 hk
    rw [ellipe_eq k h0 hk1] at hE
    rw [ellipk_eq] at hK
    have r0 := aInt_rec k h0 hk1 0
    have r1 := aInt_rec k h0 hk1 1
    have r2 := aInt_rec k h0 hk1 2
    rw [tInt_eq k h0 hk1, tInt_eq k h0 hk1, tInt_eq k h0 hk1]
    norm_num at r0 r1 r2 ⊢
    subst hE hK
    generalize aInt k 0 = A0 at *
    generalize aInt k 1 = A1 at *
    generalize aInt k 2 = A2 at *
    generalize aInt k 3 = A3 at *
    generalize aInt k 4 = A4 at *
    refine ⟨?_, ?_, ?_⟩
    · linear_combination k ^ 2 * r0
    · linear_combination (3 * k ^ 4) * r1 + (-k ^ 2 - k ^ 4) * r0
    · linear_combination (15 * k ^ 6) * r2 + (-3 * k ^ 4 - 3 * k ^ 6) * r1 + (-4 * k ^ 2 + 2 * k ^ 4 - 4 * k ^ 6) * r0

end Newt.Ach
