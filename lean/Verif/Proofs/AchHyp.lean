import Verif.Proofs.AchHypBase

/-! # cylhole cells against the volume integrals -/

namespace Newt.Ach

open MeasureTheory Finset Spec

theorem hyp_vals (r R : ℝ) (hr : 0 < r) (hR : r ≤ R) :
    QlmACH.hyp2f1 (-(1 / 2)) (1 / 2) 2 ((r / R) ^ 2) = tInt (r / R) 0 * (4 / Real.pi)
    ∧ QlmACH.hyp2f1 (-(1 / 2)) (3 / 2) 3 ((r / R) ^ 2) = tInt (r / R) 1 * (16 / Real.pi)
    ∧ QlmACH.hyp2f1 (-(1 / 2)) (5 / 2) 4 ((r / R) ^ 2) = tInt (r / R) 2 * (32 / Real.pi) := by
  have hR0 : 0 < R := by linarith
  have h0 : 0 < r / R := by positivity
  have h1 : r / R ≤ 1 := (div_le_one hR0).2 hR
  have hp := Real.pi_ne_zero
  have b1 : bInt 1 = Real.pi / 16 := by rw [bInt_succ, bInt_zero]; norm_num; ring
  have b2 : bInt 2 = Real.pi / 32 := by rw [bInt_succ, b1]; norm_num; ring
  have t0 := tInt_hyp (r / R) h0 h1 0
  have t1 := tInt_hyp (r / R) h0 h1 1
  have t2 := tInt_hyp (r / R) h0 h1 2
  rw [bInt_zero] at t0
  rw [b1] at t1
  rw [b2] at t2
  norm_num at t0 t1 t2 ⊢
  rw [t0, t1, t2]
  refine ⟨?_, ?_, ?_⟩ <;> field_simp

theorem hyp_00 (rho r R : ℝ) (hr : 0 < r) (hR : r ≤ R) :
    QlmACH.hypCell rho r R 0 0 = densityInner rho (drilledYCylinder r R) 0 ((0 : ℕ) : ℤ) := by
  have hN : Nlm 0 ((0 : ℕ) : ℤ) = (1 / 2) / Real.sqrt Real.pi := by
    refine Nlm_sq 0 0 _ (by norm_num) (by positivity) ?_
    have h1 := Real.pi_pos
    simp only [div_pow, mul_pow]
    rw [Real.sq_sqrt (show (0 : ℝ) ≤ Real.pi by positivity)]
    norm_num [Nat.factorial]
    try field_simp
    try norm_num
  have hR0 : 0 < R := by linarith
  obtain ⟨f2, f3, f4⟩ := hyp_vals r R hr hR
  rw [densityInner, cylI_00 _ R hr hR, hN]
  simp only [QlmACH.hypCell, QlmACH.hyp00, f2, f3, f4]
  have hp := sqrt_pi_ne
  have hpi : (Real.pi : ℂ) = (Real.sqrt Real.pi : ℂ) ^ 2 := by rw [← Complex.ofReal_pow, Real.sq_sqrt Real.pi_pos.le]
  push_cast
  rw [hpi]
  field_simp
  try ring

theorem hyp_10 (rho r R : ℝ) (hr : 0 < r) (hR : r ≤ R) :
    QlmACH.hypCell rho r R 1 0 = densityInner rho (drilledYCylinder r R) 1 ((0 : ℕ) : ℤ) := by
  rw [densityInner, cylI_10 r R hr hR, mul_zero]
  rfl

theorem hyp_11 (rho r R : ℝ) (hr : 0 < r) (hR : r ≤ R) :
    QlmACH.hypCell rho r R 1 1 = densityInner rho (drilledYCylinder r R) 1 ((1 : ℕ) : ℤ) := by
  rw [densityInner, cylI_11 r R hr hR, mul_zero]
  rfl

theorem hyp_20 (rho r R : ℝ) (hr : 0 < r) (hR : r ≤ R) :
    QlmACH.hypCell rho r R 2 0 = densityInner rho (drilledYCylinder r R) 2 ((0 : ℕ) : ℤ) := by
  have hN : Nlm 2 ((0 : ℕ) : ℤ) = (1) * Real.sqrt (5) / Real.sqrt Real.pi := by
    refine Nlm_sq 2 0 _ (by norm_num) (by positivity) ?_
    have h1 := Real.pi_pos
    simp only [div_pow, mul_pow]
    rw [Real.sq_sqrt (show (0 : ℝ) ≤ 5 by positivity)]
    rw [Real.sq_sqrt (show (0 : ℝ) ≤ Real.pi by positivity)]
    norm_num [Nat.factorial]
    try field_simp
    try norm_num
  have hR0 : 0 < R := by linarith
  obtain ⟨f2, f3, f4⟩ := hyp_vals r R hr hR
  rw [densityInner, cylI_20 _ R hr hR, hN]
  simp only [QlmACH.hypCell, QlmACH.hyp20, f2, f3, f4]
  have hp := sqrt_pi_ne
  have hs := sqrt_cast_ne (5) (by positivity)
  have hpi : (Real.pi : ℂ) = (Real.sqrt Real.pi : ℂ) ^ 2 := by rw [← Complex.ofReal_pow, Real.sq_sqrt Real.pi_pos.le]
  push_cast
  rw [hpi]
  field_simp
  try ring

theorem hyp_21 (rho r R : ℝ) (hr : 0 < r) (hR : r ≤ R) :
    QlmACH.hypCell rho r R 2 1 = densityInner rho (drilledYCylinder r R) 2 ((1 : ℕ) : ℤ) := by
  rw [densityInner, cylI_21 r R hr hR, mul_zero]
  rfl

theorem hyp_30 (rho r R : ℝ) (hr : 0 < r) (hR : r ≤ R) :
    QlmACH.hypCell rho r R 3 0 = densityInner rho (drilledYCylinder r R) 3 ((0 : ℕ) : ℤ) := by
  rw [densityInner, cylI_30 r R hr hR, mul_zero]
  rfl

theorem hyp_31 (rho r R : ℝ) (hr : 0 < r) (hR : r ≤ R) :
    QlmACH.hypCell rho r R 3 1 = densityInner rho (drilledYCylinder r R) 3 ((1 : ℕ) : ℤ) := by
  rw [densityInner, cylI_31 r R hr hR, mul_zero]
  rfl

theorem hyp_32 (rho r R : ℝ) (hr : 0 < r) (hR : r ≤ R) :
    QlmACH.hypCell rho r R 3 2 = densityInner rho (drilledYCylinder r R) 3 ((2 : ℕ) : ℤ) := by
  rw [densityInner, cylI_32 r R hr hR, mul_zero]
  rfl

theorem hyp_33 (rho r R : ℝ) (hr : 0 < r) (hR : r ≤ R) :
    QlmACH.hypCell rho r R 3 3 = densityInner rho (drilledYCylinder r R) 3 ((3 : ℕ) : ℤ) := by
  rw [densityInner, cylI_33 r R hr hR, mul_zero]
  rfl

theorem hyp_40 (rho r R : ℝ) (hr : 0 < r) (hR : r ≤ R) :
    QlmACH.hypCell rho r R 4 0 = densityInner rho (drilledYCylinder r R) 4 ((0 : ℕ) : ℤ) := by
  have hN : Nlm 4 ((0 : ℕ) : ℤ) = (36) / Real.sqrt Real.pi := by
    refine Nlm_sq 4 0 _ (by norm_num) (by positivity) ?_
    have h1 := Real.pi_pos
    simp only [div_pow, mul_pow]
    rw [Real.sq_sqrt (show (0 : ℝ) ≤ Real.pi by positivity)]
    norm_num [Nat.factorial]
    try field_simp
    try norm_num
  have hR0 : 0 < R := by linarith
  obtain ⟨f2, f3, f4⟩ := hyp_vals r R hr hR
  rw [densityInner, cylI_40 _ R hr hR, hN]
  simp only [QlmACH.hypCell, QlmACH.hyp40, f2, f3, f4]
  have hp := sqrt_pi_ne
  have hpi : (Real.pi : ℂ) = (Real.sqrt Real.pi : ℂ) ^ 2 := by rw [← Complex.ofReal_pow, Real.sq_sqrt Real.pi_pos.le]
  push_cast
  rw [hpi]
  field_simp
  try ring

theorem hyp_41 (rho r R : ℝ) (hr : 0 < r) (hR : r ≤ R) :
    QlmACH.hypCell rho r R 4 1 = densityInner rho (drilledYCylinder r R) 4 ((1 : ℕ) : ℤ) := by
  rw [densityInner, cylI_41 r R hr hR, mul_zero]
  rfl

theorem hyp_42 (rho r R : ℝ) (hr : 0 < r) (hR : r ≤ R) :
    QlmACH.hypCell rho r R 4 2 = densityInner rho (drilledYCylinder r R) 4 ((2 : ℕ) : ℤ) := by
  have hN : Nlm 4 ((2 : ℕ) : ℤ) = (180) / (Real.sqrt (10) * Real.sqrt Real.pi) := by
    refine Nlm_sq 4 2 _ (by norm_num) (by positivity) ?_
    have h1 := Real.pi_pos
    simp only [div_pow, mul_pow]
    rw [Real.sq_sqrt (show (0 : ℝ) ≤ 10 by positivity)]
    rw [Real.sq_sqrt (show (0 : ℝ) ≤ Real.pi by positivity)]
    norm_num [Nat.factorial]
    try field_simp
    try norm_num
  have hR0 : 0 < R := by linarith
  obtain ⟨f2, f3, f4⟩ := hyp_vals r R hr hR
  rw [densityInner, cylI_42 _ R hr hR, hN]
  simp only [QlmACH.hypCell, QlmACH.hyp42, f2, f3, f4]
  have hp := sqrt_pi_ne
  have hs := sqrt_cast_ne (10) (by positivity)
  have hpi : (Real.pi : ℂ) = (Real.sqrt Real.pi : ℂ) ^ 2 := by rw [← Complex.ofReal_pow, Real.sq_sqrt Real.pi_pos.le]
  push_cast
  rw [hpi]
  field_simp
  try ring

theorem hyp_43 (rho r R : ℝ) (hr : 0 < r) (hR : r ≤ R) :
    QlmACH.hypCell rho r R 4 3 = densityInner rho (drilledYCylinder r R) 4 ((3 : ℕ) : ℤ) := by
  rw [densityInner, cylI_43 r R hr hR, mul_zero]
  rfl

theorem hyp_50 (rho r R : ℝ) (hr : 0 < r) (hR : r ≤ R) :
    QlmACH.hypCell rho r R 5 0 = densityInner rho (drilledYCylinder r R) 5 ((0 : ℕ) : ℤ) := by
  rw [densityInner, cylI_50 r R hr hR, mul_zero]
  rfl

theorem hyp_51 (rho r R : ℝ) (hr : 0 < r) (hR : r ≤ R) :
    QlmACH.hypCell rho r R 5 1 = densityInner rho (drilledYCylinder r R) 5 ((1 : ℕ) : ℤ) := by
  rw [densityInner, cylI_51 r R hr hR, mul_zero]
  rfl

theorem hyp_52 (rho r R : ℝ) (hr : 0 < r) (hR : r ≤ R) :
    QlmACH.hypCell rho r R 5 2 = densityInner rho (drilledYCylinder r R) 5 ((2 : ℕ) : ℤ) := by
  rw [densityInner, cylI_52 r R hr hR, mul_zero]
  rfl

theorem hyp_53 (rho r R : ℝ) (hr : 0 < r) (hR : r ≤ R) :
    QlmACH.hypCell rho r R 5 3 = densityInner rho (drilledYCylinder r R) 5 ((3 : ℕ) : ℤ) := by
  rw [densityInner, cylI_53 r R hr hR, mul_zero]
  rfl

theorem hyp_54 (rho r R : ℝ) (hr : 0 < r) (hR : r ≤ R) :
    QlmACH.hypCell rho r R 5 4 = densityInner rho (drilledYCylinder r R) 5 ((4 : ℕ) : ℤ) := by
  rw [densityInner, cylI_54 r R hr hR, mul_zero]
  rfl

theorem hyp_55 (rho r R : ℝ) (hr : 0 < r) (hR : r ≤ R) :
    QlmACH.hypCell rho r R 5 5 = densityInner rho (drilledYCylinder r R) 5 ((5 : ℕ) : ℤ) := by
  rw [densityInner, cylI_55 r R hr hR, mul_zero]
  rfl

/-- Every cell of `cylhole` but (2, 2) and (4, 4). -/
theorem hyp_cells (rho r R : ℝ) (hr : 0 < r) (hR : r ≤ R) (l m : ℕ) (hm : m ≤ l) (hl : l ≤ 5)
    (hbad : ¬ (l = 2 ∧ m = 2) ∧ ¬ (l = 4 ∧ m = 4)) :
    QlmACH.hypCell rho r R l m = densityInner rho (drilledYCylinder r R) l m := by
  refine cells21 (fun l m => ¬ (l = 2 ∧ m = 2) ∧ ¬ (l = 4 ∧ m = 4) → QlmACH.hypCell rho r R l m
      = densityInner rho (drilledYCylinder r R) l ((m : ℕ) : ℤ))
    (fun _ => hyp_00 rho r R hr hR) (fun _ => hyp_10 rho r R hr hR) (fun _ => hyp_11 rho r R hr hR) (fun _ => hyp_20 rho r R hr hR) (fun _ => hyp_21 rho r R hr hR) (fun h => absurd ⟨rfl, rfl⟩ h.1) (fun _ => hyp_30 rho r R hr hR) (fun _ => hyp_31 rho r R hr hR) (fun _ => hyp_32 rho r R hr hR) (fun _ => hyp_33 rho r R hr hR) (fun _ => hyp_40 rho r R hr hR) (fun _ => hyp_41 rho r R hr hR) (fun _ => hyp_42 rho r R hr hR) (fun _ => hyp_43 rho r R hr hR) (fun h => absurd ⟨rfl, rfl⟩ h.2) (fun _ => hyp_50 rho r R hr hR) (fun _ => hyp_51 rho r R hr hR) (fun _ => hyp_52 rho r R hr hR) (fun _ => hyp_53 rho r R hr hR) (fun _ => hyp_54 rho r R hr hR) (fun _ => hyp_55 rho r R hr hR) l m hm hl hbad

theorem hyp_high (rho r R : ℝ) (l m : ℕ) (hl : 5 < l) : QlmACH.hypCell rho r R l m = 0 := by
  obtain ⟨k, rfl⟩ : ∃ k, l = k + 6 := ⟨l - 6, by omega⟩
  rfl

theorem tInt_ii (k : ℝ) (n : ℕ) (a b : ℝ) :
    IntervalIntegrable (fun t => Real.sin t ^ (2 * n) * Real.cos t ^ 2 * dlt k t) volume a b := by
  have := dlt_cont k
  exact Continuous.intervalIntegrable (by fun_prop) a b

/-- The weight of `cos 2 phi` against the decreasing height of the hole. -/
theorem t22_nonpos (k : ℝ) (h0 : 0 < k) (h1 : k ≤ 1) : 4 * tInt k 1 - tInt k 0 ≤ 0 := by
  have hb : 4 * bInt 1 - bInt 0 = 0 := by rw [bInt_succ, bInt_zero]; norm_num; ring
  set c := Real.sqrt (1 - k ^ 2 * (1 / 4)) with hc
  have hcI : ∀ n, IntervalIntegrable (fun t => Real.sin t ^ (2 * n) * Real.cos t ^ 2) volume 0 (Real.pi / 2) :=
    fun n => Continuous.intervalIntegrable (by fun_prop) _ _
  have e : 4 * tInt k 1 - tInt k 0 = ∫ t in (0 : ℝ)..(Real.pi / 2), (4 * Real.sin t ^ 2 - 1) * (dlt k t - c) * Real.cos t ^ 2 := by
    have e1 : 4 * tInt k 1 - tInt k 0 = (4 * tInt k 1 - tInt k 0) - c * (4 * bInt 1 - bInt 0) := by rw [hb]; ring
    rw [e1, tInt, tInt, bInt, bInt, ← intervalIntegral.integral_const_mul, ← intervalIntegral.integral_const_mul,
      ← intervalIntegral.integral_sub ((tInt_ii k 1 _ _).const_mul _) (tInt_ii k 0 _ _),
      ← intervalIntegral.integral_sub ((hcI 1).const_mul _) (hcI 0), ← intervalIntegral.integral_const_mul,
      ← intervalIntegral.integral_sub (((tInt_ii k 1 _ _).const_mul _).sub (tInt_ii k 0 _ _))
        ((((hcI 1).const_mul _).sub (hcI 0)).const_mul _)]
    refine intervalIntegral.integral_congr fun t _ => ?_
    simp only [mul_one, mul_zero, pow_zero, one_mul]
    ring
  rw [e]
  rw [← neg_nonneg, ← intervalIntegral.integral_neg]
  refine intervalIntegral.integral_nonneg (by positivity) fun t _ => ?_
  have hmain : (4 * Real.sin t ^ 2 - 1) * (dlt k t - c) ≤ 0 := by
    rcases le_total (Real.sin t ^ 2) (1 / 4) with h | h
    · refine mul_nonpos_of_nonpos_of_nonneg (by linarith) (sub_nonneg.2 ?_)
      refine Real.sqrt_le_sqrt ?_
      nlinarith [sq_nonneg k]
    · refine mul_nonpos_of_nonneg_of_nonpos (by linarith) (sub_nonpos.2 ?_)
      refine Real.sqrt_le_sqrt ?_
      nlinarith [sq_nonneg k]
  have := mul_nonpos_of_nonpos_of_nonneg hmain (sq_nonneg (Real.cos t))
  linarith

/-- A concave function against a quadratic that is positive outside the two points where they meet. -/
theorem concave_sign (k u v s : ℝ) (h1 : k ^ 2 ≤ 1) (hu0 : 0 ≤ u) (huv : u < v) (hv1 : v ≤ 1) (hs0 : 0 ≤ s) (hs1 : s ≤ 1) :
    (s - u) * (s - v) * (Real.sqrt (1 - k ^ 2 * s) - (Real.sqrt (1 - k ^ 2 * u)
      + (Real.sqrt (1 - k ^ 2 * v) - Real.sqrt (1 - k ^ 2 * u)) * ((s - u) / (v - u)))) ≤ 0 := by
  have hn : ∀ x, 0 ≤ x → x ≤ 1 → 0 ≤ 1 - k ^ 2 * x := fun x a b => by nlinarith [sq_nonneg k]
  set A := Real.sqrt (1 - k ^ 2 * s) with hA
  set B := Real.sqrt (1 - k ^ 2 * u) with hB
  set C := Real.sqrt (1 - k ^ 2 * v) with hC
  have A2 : A ^ 2 = 1 - k ^ 2 * s := Real.sq_sqrt (hn s hs0 hs1)
  have B2 : B ^ 2 = 1 - k ^ 2 * u := Real.sq_sqrt (hn u hu0 (by linarith))
  have C2 : C ^ 2 = 1 - k ^ 2 * v := Real.sq_sqrt (hn v (by linarith) hv1)
  have A0 : 0 ≤ A := Real.sqrt_nonneg _
  have B0 : 0 ≤ B := Real.sqrt_nonneg _
  have C0 : 0 ≤ C := Real.sqrt_nonneg _
  by_cases hk : k = 0
  · subst hk
    have : A = 1 ∧ B = 1 ∧ C = 1 := by simp [hA, hB, hC]
    obtain ⟨a, b, c⟩ := this
    rw [a, b, c]; simp
  have hk2 : 0 < k ^ 2 := by positivity
  have hd : 0 < v - u := by linarith
  have hBC : 0 < B + C := by
    rcases (add_nonneg B0 C0).lt_or_eq with h | h
    · exact h
    · have hB' : B = 0 := by linarith
      have hC' : C = 0 := by linarith
      rw [hB'] at B2
      rw [hC'] at C2
      nlinarith
  have hBCne : B - C ≠ 0 := by
    intro h
    have : B = C := by linarith
    rw [this] at B2
    nlinarith
  have es : s - u = (B ^ 2 - A ^ 2) / k ^ 2 := by rw [A2, B2]; field_simp; ring
  have ev : s - v = (C ^ 2 - A ^ 2) / k ^ 2 := by rw [A2, C2]; field_simp; ring
  have ed : v - u = (B ^ 2 - C ^ 2) / k ^ 2 := by rw [C2, B2]; field_simp; ring
  have hBC2 : B ^ 2 - C ^ 2 ≠ 0 := by
    rw [show B ^ 2 - C ^ 2 = (B - C) * (B + C) by ring]; exact mul_ne_zero hBCne hBC.ne'
  have hfin : (s - u) * (s - v) * (A - (B + (C - B) * ((s - u) / (v - u))))
      = -((A - B) ^ 2 * (A - C) ^ 2 * ((A + B) * (A + C) / (k ^ 4 * (B + C)))) := by
    rw [es, ev, ed]
    have : (B ^ 2 - A ^ 2) / k ^ 2 / ((B ^ 2 - C ^ 2) / k ^ 2) = (B ^ 2 - A ^ 2) / ((B - C) * (B + C)) := by
      rw [show (B - C) * (B + C) = B ^ 2 - C ^ 2 by ring]; field_simp
    rw [this]
    field_simp
    ring
  rw [hfin]
  have : 0 ≤ (A - B) ^ 2 * (A - C) ^ 2 * ((A + B) * (A + C) / (k ^ 4 * (B + C))) := by positivity
  linarith

theorem t44_nonpos (k : ℝ) (h0 : 0 < k) (h1 : k ≤ 1) : 16 * tInt k 2 - 12 * tInt k 1 + tInt k 0 ≤ 0 := by
  have hb1 : bInt 1 = Real.pi / 16 := by rw [bInt_succ, bInt_zero]; norm_num; ring
  have hb2 : bInt 2 = Real.pi / 32 := by rw [bInt_succ, hb1]; norm_num; ring
  have hb3 : bInt 3 = Real.pi / 32 * (5 / 8) := by rw [bInt_succ, hb2]; norm_num
  have h5 : Real.sqrt 5 ^ 2 = 5 := Real.sq_sqrt (by norm_num)
  have h5p : 0 < Real.sqrt 5 := Real.sqrt_pos.2 (by norm_num)
  have h53 : Real.sqrt 5 < 3 := by nlinarith
  set u := (3 - Real.sqrt 5) / 8 with hu
  set v := (3 + Real.sqrt 5) / 8 with hv
  set B := Real.sqrt (1 - k ^ 2 * u) with hB
  set C := Real.sqrt (1 - k ^ 2 * v) with hC
  set q := (C - B) / (v - u) with hq
  set p := B - q * u with hp
  have hcI : ∀ n, IntervalIntegrable (fun t => Real.sin t ^ (2 * n) * Real.cos t ^ 2) volume 0 (Real.pi / 2) :=
    fun n => Continuous.intervalIntegrable (by fun_prop) _ _
  have e : 16 * tInt k 2 - 12 * tInt k 1 + tInt k 0 = ∫ t in (0 : ℝ)..(Real.pi / 2),
      16 * ((Real.sin t ^ 2 - u) * (Real.sin t ^ 2 - v) * (dlt k t - (p + q * Real.sin t ^ 2))) * Real.cos t ^ 2 := by
    have hbz : p * (16 * bInt 2 - 12 * bInt 1 + bInt 0) + q * (16 * bInt 3 - 12 * bInt 2 + bInt 1) = 0 := by
      rw [hb3, hb2, hb1, bInt_zero]; ring
    have e1 : 16 * tInt k 2 - 12 * tInt k 1 + tInt k 0 = (16 * tInt k 2 - 12 * tInt k 1 + tInt k 0)
        - ((16 * q) * bInt 3 + (16 * p - 12 * q) * bInt 2 + (q - 12 * p) * bInt 1 + p * bInt 0) := by
      linear_combination hbz
    have J : ∀ n c, IntervalIntegrable (fun t => c * (Real.sin t ^ (2 * n) * Real.cos t ^ 2 * dlt k t)) volume 0 (Real.pi / 2) :=
      fun n c => (tInt_ii k n _ _).const_mul c
    have H : ∀ n c, IntervalIntegrable (fun t => c * (Real.sin t ^ (2 * n) * Real.cos t ^ 2)) volume 0 (Real.pi / 2) :=
      fun n c => (hcI n).const_mul c
    have i1 : ∀ c n, c * tInt k n = ∫ t in (0 : ℝ)..(Real.pi / 2), c * (Real.sin t ^ (2 * n) * Real.cos t ^ 2 * dlt k t) :=
      fun c n => by rw [tInt, intervalIntegral.integral_const_mul]
    have i2 : ∀ c n, c * bInt n = ∫ t in (0 : ℝ)..(Real.pi / 2), c * (Real.sin t ^ (2 * n) * Real.cos t ^ 2) :=
      fun c n => by rw [bInt, intervalIntegral.integral_const_mul]
    rw [e1, ← one_mul (tInt k 0), i1, i1, i1, i2, i2, i2, i2,
      ← intervalIntegral.integral_sub (J 2 _) (J 1 _), ← intervalIntegral.integral_add ((J 2 _).sub (J 1 _)) (J 0 _),
      ← intervalIntegral.integral_add (H 3 _) (H 2 _), ← intervalIntegral.integral_add ((H 3 _).add (H 2 _)) (H 1 _),
      ← intervalIntegral.integral_add (((H 3 _).add (H 2 _)).add (H 1 _)) (H 0 _),
      ← intervalIntegral.integral_sub (((J 2 _).sub (J 1 _)).add (J 0 _)) ((((H 3 _).add (H 2 _)).add (H 1 _)).add (H 0 _))]
    refine intervalIntegral.integral_congr fun t _ => ?_
    have huv : u + v = 3 / 4 := by rw [hu, hv]; ring
    have huv2 : u * v = 1 / 16 := by rw [hu, hv]; linear_combination (-1 / 64) * h5
    have hquad : 16 * ((Real.sin t ^ 2 - u) * (Real.sin t ^ 2 - v)) = 16 * Real.sin t ^ 4 - 12 * Real.sin t ^ 2 + 1 := by
      linear_combination (-16 * Real.sin t ^ 2) * huv + 16 * huv2
    rw [show 16 * ((Real.sin t ^ 2 - u) * (Real.sin t ^ 2 - v) * (dlt k t - (p + q * Real.sin t ^ 2))) * Real.cos t ^ 2
      = (16 * ((Real.sin t ^ 2 - u) * (Real.sin t ^ 2 - v))) * (dlt k t - (p + q * Real.sin t ^ 2)) * Real.cos t ^ 2 by ring,
      hquad]
    ring
  rw [e, ← neg_nonneg, ← intervalIntegral.integral_neg]
  refine intervalIntegral.integral_nonneg (by positivity) fun t _ => ?_
  have huv : u < v := by rw [hu, hv]; linarith
  have hd : v - u ≠ 0 := by linarith
  have hmain := concave_sign k u v (Real.sin t ^ 2) (by nlinarith) (by rw [hu]; linarith) huv (by rw [hv]; linarith)
    (sq_nonneg _) (Real.sin_sq_le_one t)
  have heq : p + q * Real.sin t ^ 2 = B + (C - B) * ((Real.sin t ^ 2 - u) / (v - u)) := by
    rw [hp, hq]; field_simp; ring
  rw [← hB, ← hC, ← heq, ← dlt] at hmain
  have := mul_nonpos_of_nonpos_of_nonneg hmain (sq_nonneg (Real.cos t))
  nlinarith

theorem tInt_pos0 (k : ℝ) (h0 : 0 < k) (h1 : k ≤ 1) : 0 < tInt k 0 := by
  rw [tInt]
  refine intervalIntegral.intervalIntegral_pos_of_pos_on (tInt_ii k 0 _ _) (fun t ht => ?_) (by positivity)
  have hc0 : 0 < Real.cos t := Real.cos_pos_of_mem_Ioo ⟨by linarith [ht.1, Real.pi_pos], ht.2⟩
  have hs1 : Real.sin t ^ 2 < 1 := by nlinarith [Real.sin_sq_add_cos_sq t]
  have hk2 : k ^ 2 ≤ 1 := by nlinarith
  have : 0 < dlt k t := Real.sqrt_pos.2 (by nlinarith [sq_nonneg (Real.sin t), sq_nonneg k])
  simp only [mul_zero, pow_zero, one_mul]
  positivity

/-- The (2, 2) and (4, 4) moments of the hole are not positive, those of `cylhole` are positive (for `rho > 0`). -/
theorem hyp_22 (r R : ℝ) (hr : 0 < r) (hR : r ≤ R) : ∃ c d : ℝ, c ≤ 0 ∧ 0 < d ∧ ∀ rho : ℝ,
    densityInner rho (drilledYCylinder r R) 2 ((2 : ℕ) : ℤ) = ((rho * c : ℝ) : ℂ)
    ∧ QlmACH.hypCell rho r R 2 2 = ((rho * d : ℝ) : ℂ) := by
  have hR0 : 0 < R := by linarith
  have h0 : 0 < r / R := by positivity
  have h1 : r / R ≤ 1 := (div_le_one hR0).2 hR
  obtain ⟨f2, f3, f4⟩ := hyp_vals r R hr hR
  have hT := tInt_pos0 _ h0 h1
  have hp := Real.pi_pos
  refine ⟨Nlm 2 2 * (r ^ 4 * R / 3 * (4 * tInt (r / R) 1 - tInt (r / R) 0)),
    Real.sqrt Real.pi * r * R * r * Real.sqrt (15 / 2) * (tInt (r / R) 0 * (4 / Real.pi)), ?_, by positivity, fun rho => ⟨?_, ?_⟩⟩
  · have hN := Nlm_pos 2 2
    have := t22_nonpos _ h0 h1
    exact mul_nonpos_of_nonneg_of_nonpos hN.le (mul_nonpos_of_nonneg_of_nonpos (by positivity) this)
  · rw [densityInner, cylI_22 r R hr hR]
    push_cast; ring
  · simp only [QlmACH.hypCell, QlmACH.hyp22, f2]
    push_cast; ring

theorem hyp_44 (r R : ℝ) (hr : 0 < r) (hR : r ≤ R) : ∃ c d : ℝ, c ≤ 0 ∧ 0 < d ∧ ∀ rho : ℝ,
    densityInner rho (drilledYCylinder r R) 4 ((4 : ℕ) : ℤ) = ((rho * c : ℝ) : ℂ)
    ∧ QlmACH.hypCell rho r R 4 4 = ((rho * d : ℝ) : ℂ) := by
  have hR0 : 0 < R := by linarith
  have h0 : 0 < r / R := by positivity
  have h1 : r / R ≤ 1 := (div_le_one hR0).2 hR
  obtain ⟨f2, f3, f4⟩ := hyp_vals r R hr hR
  have hT := tInt_pos0 _ h0 h1
  have hp := Real.pi_pos
  refine ⟨Nlm 4 4 * (r ^ 6 * R / 240 * (16 * tInt (r / R) 2 - 12 * tInt (r / R) 1 + tInt (r / R) 0)),
    3 * (Real.sqrt Real.pi * r * R) * r * Real.sqrt (35 / 2) * (tInt (r / R) 0 * (4 / Real.pi)) / 2, ?_, by positivity, fun rho => ⟨?_, ?_⟩⟩
  · have hN := Nlm_pos 4 4
    have := t44_nonpos _ h0 h1
    exact mul_nonpos_of_nonneg_of_nonpos hN.le (mul_nonpos_of_nonneg_of_nonpos (by positivity) this)
  · rw [densityInner, cylI_44 r R hr hR]
    push_cast; ring
  · simp only [QlmACH.hypCell, QlmACH.hyp44, f2]
    push_cast; ring

end Newt.Ach
