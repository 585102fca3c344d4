import Verif.Proofs.AchPlateBase

/-! # platehole cells against the volume integrals -/

namespace Newt.Ach

open MeasureTheory Finset Spec

theorem one_add_tan_sq (theta : ℝ) (hc : 0 < Real.cos theta) : (1 / Real.cos theta) ^ 2 = 1 + Real.tan theta ^ 2 := by
  rw [Real.tan_eq_sin_div_cos]
  have := Real.sin_sq_add_cos_sq theta
  field_simp
  linarith

theorem sqrt_pi_sec (theta : ℝ) (hc : 0 < Real.cos theta) :
    Real.sqrt (Real.pi * (1 + Real.tan theta ^ 2)) = Real.sqrt Real.pi * (1 / Real.cos theta) := by
  rw [← one_add_tan_sq theta hc, Real.sqrt_mul Real.pi_pos.le, Real.sqrt_sq (by positivity)]

theorem plate_00 (rho t r theta : ℝ) (ht : 0 < t) (hr : 0 < r) (hc : 0 < Real.cos theta) :
    QlmACH.plateCell rho t r theta 0 0 = densityInner rho (drilledSlab t r theta) 0 ((0 : ℕ) : ℤ) := by
  obtain ⟨d00, d10, d01, d20, d11, d02, d30, d21, d12, d03, d40, d31, d22, d13, d04, d50, d41, d32, d23, d14, d05⟩ := disc_vals r
  have hC := plateC_compact t r theta hr hc
  have hE0 := expands_solid _ hC 0
  have hN : Nlm 0 ((0 : ℕ) : ℤ) = (1 / 2) / Real.sqrt Real.pi := by
    refine Nlm_sq 0 0 _ (by norm_num) (by positivity) ?_
    have h1 := Real.pi_pos
    simp only [div_pow, mul_pow]
    rw [Real.sq_sqrt (show (0 : ℝ) ≤ Real.pi by positivity)]
    norm_num [Nat.factorial]
    try field_simp
    try norm_num
  rw [densityInner, show drilledSlab t r theta = {v : V3 | (v 2, (v 0, v 1)) ∈ plateC t r theta} from rfl, solidI_00 _ hC, pmX_00 hE0, hN]
  simp only [QlmACH.plateCell, QlmACH.plate00, plate_mon t r theta ht hr hc, sum_range_succ, sum_range_zero, Nat.choose, Nat.reduceAdd, Nat.reduceSub, zero_add, add_zero,
    zint_val0, zint_val1, zint_val2, zint_val3, zint_val4, zint_val5, d00, d10, d01, d20, d11, d02, d30, d21, d12, d03, d40, d31, d22, d13, d04, d50, d41, d32, d23, d14, d05]
  rw [sqrt_pi_sec theta hc]
  have hp := sqrt_pi_ne
  have hpi : (Real.pi : ℂ) = (Real.sqrt Real.pi : ℂ) ^ 2 := by rw [← Complex.ofReal_pow, Real.sq_sqrt Real.pi_pos.le]
  have hU := one_add_tan_sq theta hc
  generalize Real.tan theta = T at *
  generalize 1 / Real.cos theta = U at *
  have hU3 : U ^ 3 = U * (1 + T ^ 2) := by rw [← hU]; ring
  have hU5 : U ^ 5 = U * (1 + T ^ 2) ^ 2 := by rw [← hU]; ring
  try simp only [hU3, hU5]
  push_cast
  rw [hpi]
  field_simp
  first | done | ring1 | (ring_nf; simp only [Complex.I_sq, Complex.I_pow_three, Complex.I_pow_four, Ipow5]; ring)

theorem plate_10 (rho t r theta : ℝ) (ht : 0 < t) (hr : 0 < r) (hc : 0 < Real.cos theta) :
    QlmACH.plateCell rho t r theta 1 0 = densityInner rho (drilledSlab t r theta) 1 ((0 : ℕ) : ℤ) := by
  obtain ⟨d00, d10, d01, d20, d11, d02, d30, d21, d12, d03, d40, d31, d22, d13, d04, d50, d41, d32, d23, d14, d05⟩ := disc_vals r
  have hC := plateC_compact t r theta hr hc
  have hE1 := expands_solid _ hC 1
  rw [densityInner, show drilledSlab t r theta = {v : V3 | (v 2, (v 0, v 1)) ∈ plateC t r theta} from rfl, solidI_10 _ hC, pmX_00 hE1]
  simp only [QlmACH.plateCell, plate_mon t r theta ht hr hc, sum_range_succ, sum_range_zero, Nat.choose, Nat.reduceAdd, Nat.reduceSub, zero_add, add_zero,
    zint_val0, zint_val1, zint_val2, zint_val3, zint_val4, zint_val5, d00, d10, d01, d20, d11, d02, d30, d21, d12, d03, d40, d31, d22, d13, d04, d50, d41, d32, d23, d14, d05]
  push_cast
  ring

theorem plate_11 (rho t r theta : ℝ) (ht : 0 < t) (hr : 0 < r) (hc : 0 < Real.cos theta) :
    QlmACH.plateCell rho t r theta 1 1 = densityInner rho (drilledSlab t r theta) 1 ((1 : ℕ) : ℤ) := by
  obtain ⟨d00, d10, d01, d20, d11, d02, d30, d21, d12, d03, d40, d31, d22, d13, d04, d50, d41, d32, d23, d14, d05⟩ := disc_vals r
  have hC := plateC_compact t r theta hr hc
  have hE0 := expands_solid _ hC 0
  rw [densityInner, show drilledSlab t r theta = {v : V3 | (v 2, (v 0, v 1)) ∈ plateC t r theta} from rfl, solidI_11 _ hC, pmX_10 hE0]
  simp only [QlmACH.plateCell, plate_mon t r theta ht hr hc, sum_range_succ, sum_range_zero, Nat.choose, Nat.reduceAdd, Nat.reduceSub, zero_add, add_zero,
    zint_val0, zint_val1, zint_val2, zint_val3, zint_val4, zint_val5, d00, d10, d01, d20, d11, d02, d30, d21, d12, d03, d40, d31, d22, d13, d04, d50, d41, d32, d23, d14, d05]
  push_cast
  ring

theorem plate_20 (rho t r theta : ℝ) (ht : 0 < t) (hr : 0 < r) (hc : 0 < Real.cos theta) :
    QlmACH.plateCell rho t r theta 2 0 = densityInner rho (drilledSlab t r theta) 2 ((0 : ℕ) : ℤ) := by
  obtain ⟨d00, d10, d01, d20, d11, d02, d30, d21, d12, d03, d40, d31, d22, d13, d04, d50, d41, d32, d23, d14, d05⟩ := disc_vals r
  have hC := plateC_compact t r theta hr hc
  have hE0 := expands_solid _ hC 0
  have hE2 := expands_solid _ hC 2
  have hN : Nlm 2 ((0 : ℕ) : ℤ) = (1) * Real.sqrt (5) / Real.sqrt Real.pi := by
    refine Nlm_sq 2 0 _ (by norm_num) (by positivity) ?_
    have h1 := Real.pi_pos
    simp only [div_pow, mul_pow]
    rw [Real.sq_sqrt (show (0 : ℝ) ≤ 5 by positivity)]
    rw [Real.sq_sqrt (show (0 : ℝ) ≤ Real.pi by positivity)]
    norm_num [Nat.factorial]
    try field_simp
    try norm_num
  rw [densityInner, show drilledSlab t r theta = {v : V3 | (v 2, (v 0, v 1)) ∈ plateC t r theta} from rfl, solidI_20 _ hC, pmX_00 hE2, pmX_01 hE0, hN]
  simp only [QlmACH.plateCell, QlmACH.plate20, plate_mon t r theta ht hr hc, sum_range_succ, sum_range_zero, Nat.choose, Nat.reduceAdd, Nat.reduceSub, zero_add, add_zero,
    zint_val0, zint_val1, zint_val2, zint_val3, zint_val4, zint_val5, d00, d10, d01, d20, d11, d02, d30, d21, d12, d03, d40, d31, d22, d13, d04, d50, d41, d32, d23, d14, d05]
  rw [sqrt_pi_sec theta hc]
  have hp := sqrt_pi_ne
  have hs := sqrt_cast_ne (5) (by positivity)
  have hpi : (Real.pi : ℂ) = (Real.sqrt Real.pi : ℂ) ^ 2 := by rw [← Complex.ofReal_pow, Real.sq_sqrt Real.pi_pos.le]
  have hU := one_add_tan_sq theta hc
  generalize Real.tan theta = T at *
  generalize 1 / Real.cos theta = U at *
  have hU3 : U ^ 3 = U * (1 + T ^ 2) := by rw [← hU]; ring
  have hU5 : U ^ 5 = U * (1 + T ^ 2) ^ 2 := by rw [← hU]; ring
  try simp only [hU3, hU5]
  push_cast
  rw [hpi]
  field_simp
  first | done | ring1 | (ring_nf; simp only [Complex.I_sq, Complex.I_pow_three, Complex.I_pow_four, Ipow5]; ring)

theorem plate_21 (rho t r theta : ℝ) (ht : 0 < t) (hr : 0 < r) (hc : 0 < Real.cos theta) :
    QlmACH.plateCell rho t r theta 2 1 = densityInner rho (drilledSlab t r theta) 2 ((1 : ℕ) : ℤ) := by
  obtain ⟨d00, d10, d01, d20, d11, d02, d30, d21, d12, d03, d40, d31, d22, d13, d04, d50, d41, d32, d23, d14, d05⟩ := disc_vals r
  have hC := plateC_compact t r theta hr hc
  have hE1 := expands_solid _ hC 1
  have hN : Nlm 2 ((1 : ℕ) : ℤ) = (3) * Real.sqrt (5 / 6) / Real.sqrt Real.pi := by
    refine Nlm_sq 2 1 _ (by norm_num) (by positivity) ?_
    have h1 := Real.pi_pos
    simp only [div_pow, mul_pow]
    rw [Real.sq_sqrt (show (0 : ℝ) ≤ 5 / 6 by positivity)]
    rw [Real.sq_sqrt (show (0 : ℝ) ≤ Real.pi by positivity)]
    norm_num [Nat.factorial]
    try field_simp
    try norm_num
  rw [densityInner, show drilledSlab t r theta = {v : V3 | (v 2, (v 0, v 1)) ∈ plateC t r theta} from rfl, solidI_21 _ hC, pmX_10 hE1, hN]
  simp only [QlmACH.plateCell, QlmACH.plate21, plate_mon t r theta ht hr hc, sum_range_succ, sum_range_zero, Nat.choose, Nat.reduceAdd, Nat.reduceSub, zero_add, add_zero,
    zint_val0, zint_val1, zint_val2, zint_val3, zint_val4, zint_val5, d00, d10, d01, d20, d11, d02, d30, d21, d12, d03, d40, d31, d22, d13, d04, d50, d41, d32, d23, d14, d05]
  rw [sqrt_pi_sec theta hc]
  have hp := sqrt_pi_ne
  have hs := sqrt_cast_ne (5 / 6) (by positivity)
  have hpi : (Real.pi : ℂ) = (Real.sqrt Real.pi : ℂ) ^ 2 := by rw [← Complex.ofReal_pow, Real.sq_sqrt Real.pi_pos.le]
  have hU := one_add_tan_sq theta hc
  generalize Real.tan theta = T at *
  generalize 1 / Real.cos theta = U at *
  have hU3 : U ^ 3 = U * (1 + T ^ 2) := by rw [← hU]; ring
  have hU5 : U ^ 5 = U * (1 + T ^ 2) ^ 2 := by rw [← hU]; ring
  try simp only [hU3, hU5]
  push_cast
  rw [hpi]
  field_simp
  first | done | ring1 | (ring_nf; simp only [Complex.I_sq, Complex.I_pow_three, Complex.I_pow_four, Ipow5]; ring)

theorem plate_22 (rho t r theta : ℝ) (ht : 0 < t) (hr : 0 < r) (hc : 0 < Real.cos theta) :
    QlmACH.plateCell rho t r theta 2 2 = densityInner rho (drilledSlab t r theta) 2 ((2 : ℕ) : ℤ) := by
  obtain ⟨d00, d10, d01, d20, d11, d02, d30, d21, d12, d03, d40, d31, d22, d13, d04, d50, d41, d32, d23, d14, d05⟩ := disc_vals r
  have hC := plateC_compact t r theta hr hc
  have hE0 := expands_solid _ hC 0
  have hN : Nlm 2 ((2 : ℕ) : ℤ) = (6) * Real.sqrt (5 / 6) / Real.sqrt Real.pi := by
    refine Nlm_sq 2 2 _ (by norm_num) (by positivity) ?_
    have h1 := Real.pi_pos
    simp only [div_pow, mul_pow]
    rw [Real.sq_sqrt (show (0 : ℝ) ≤ 5 / 6 by positivity)]
    rw [Real.sq_sqrt (show (0 : ℝ) ≤ Real.pi by positivity)]
    norm_num [Nat.factorial]
    try field_simp
    try norm_num
  rw [densityInner, show drilledSlab t r theta = {v : V3 | (v 2, (v 0, v 1)) ∈ plateC t r theta} from rfl, solidI_22 _ hC, pmX_20 hE0, hN]
  simp only [QlmACH.plateCell, QlmACH.plate22, plate_mon t r theta ht hr hc, sum_range_succ, sum_range_zero, Nat.choose, Nat.reduceAdd, Nat.reduceSub, zero_add, add_zero,
    zint_val0, zint_val1, zint_val2, zint_val3, zint_val4, zint_val5, d00, d10, d01, d20, d11, d02, d30, d21, d12, d03, d40, d31, d22, d13, d04, d50, d41, d32, d23, d14, d05]
  rw [sqrt_pi_sec theta hc]
  have hp := sqrt_pi_ne
  have hs := sqrt_cast_ne (5 / 6) (by positivity)
  have hpi : (Real.pi : ℂ) = (Real.sqrt Real.pi : ℂ) ^ 2 := by rw [← Complex.ofReal_pow, Real.sq_sqrt Real.pi_pos.le]
  have hU := one_add_tan_sq theta hc
  generalize Real.tan theta = T at *
  generalize 1 / Real.cos theta = U at *
  have hU3 : U ^ 3 = U * (1 + T ^ 2) := by rw [← hU]; ring
  have hU5 : U ^ 5 = U * (1 + T ^ 2) ^ 2 := by rw [← hU]; ring
  try simp only [hU3, hU5]
  push_cast
  rw [hpi]
  field_simp
  first | done | ring1 | (ring_nf; simp only [Complex.I_sq, Complex.I_pow_three, Complex.I_pow_four, Ipow5]; ring)

theorem plate_30 (rho t r theta : ℝ) (ht : 0 < t) (hr : 0 < r) (hc : 0 < Real.cos theta) :
    QlmACH.plateCell rho t r theta 3 0 = densityInner rho (drilledSlab t r theta) 3 ((0 : ℕ) : ℤ) := by
  obtain ⟨d00, d10, d01, d20, d11, d02, d30, d21, d12, d03, d40, d31, d22, d13, d04, d50, d41, d32, d23, d14, d05⟩ := disc_vals r
  have hC := plateC_compact t r theta hr hc
  have hE1 := expands_solid _ hC 1
  have hE3 := expands_solid _ hC 3
  rw [densityInner, show drilledSlab t r theta = {v : V3 | (v 2, (v 0, v 1)) ∈ plateC t r theta} from rfl, solidI_30 _ hC, pmX_00 hE3, pmX_01 hE1]
  simp only [QlmACH.plateCell, plate_mon t r theta ht hr hc, sum_range_succ, sum_range_zero, Nat.choose, Nat.reduceAdd, Nat.reduceSub, zero_add, add_zero,
    zint_val0, zint_val1, zint_val2, zint_val3, zint_val4, zint_val5, d00, d10, d01, d20, d11, d02, d30, d21, d12, d03, d40, d31, d22, d13, d04, d50, d41, d32, d23, d14, d05]
  push_cast
  ring

theorem plate_31 (rho t r theta : ℝ) (ht : 0 < t) (hr : 0 < r) (hc : 0 < Real.cos theta) :
    QlmACH.plateCell rho t r theta 3 1 = densityInner rho (drilledSlab t r theta) 3 ((1 : ℕ) : ℤ) := by
  obtain ⟨d00, d10, d01, d20, d11, d02, d30, d21, d12, d03, d40, d31, d22, d13, d04, d50, d41, d32, d23, d14, d05⟩ := disc_vals r
  have hC := plateC_compact t r theta hr hc
  have hE0 := expands_solid _ hC 0
  have hE2 := expands_solid _ hC 2
  rw [densityInner, show drilledSlab t r theta = {v : V3 | (v 2, (v 0, v 1)) ∈ plateC t r theta} from rfl, solidI_31 _ hC, pmX_10 hE2, pmX_11 hE0]
  simp only [QlmACH.plateCell, plate_mon t r theta ht hr hc, sum_range_succ, sum_range_zero, Nat.choose, Nat.reduceAdd, Nat.reduceSub, zero_add, add_zero,
    zint_val0, zint_val1, zint_val2, zint_val3, zint_val4, zint_val5, d00, d10, d01, d20, d11, d02, d30, d21, d12, d03, d40, d31, d22, d13, d04, d50, d41, d32, d23, d14, d05]
  push_cast
  ring

theorem plate_32 (rho t r theta : ℝ) (ht : 0 < t) (hr : 0 < r) (hc : 0 < Real.cos theta) :
    QlmACH.plateCell rho t r theta 3 2 = densityInner rho (drilledSlab t r theta) 3 ((2 : ℕ) : ℤ) := by
  obtain ⟨d00, d10, d01, d20, d11, d02, d30, d21, d12, d03, d40, d31, d22, d13, d04, d50, d41, d32, d23, d14, d05⟩ := disc_vals r
  have hC := plateC_compact t r theta hr hc
  have hE1 := expands_solid _ hC 1
  rw [densityInner, show drilledSlab t r theta = {v : V3 | (v 2, (v 0, v 1)) ∈ plateC t r theta} from rfl, solidI_32 _ hC, pmX_20 hE1]
  simp only [QlmACH.plateCell, plate_mon t r theta ht hr hc, sum_range_succ, sum_range_zero, Nat.choose, Nat.reduceAdd, Nat.reduceSub, zero_add, add_zero,
    zint_val0, zint_val1, zint_val2, zint_val3, zint_val4, zint_val5, d00, d10, d01, d20, d11, d02, d30, d21, d12, d03, d40, d31, d22, d13, d04, d50, d41, d32, d23, d14, d05]
  push_cast
  ring

theorem plate_33 (rho t r theta : ℝ) (ht : 0 < t) (hr : 0 < r) (hc : 0 < Real.cos theta) :
    QlmACH.plateCell rho t r theta 3 3 = densityInner rho (drilledSlab t r theta) 3 ((3 : ℕ) : ℤ) := by
  obtain ⟨d00, d10, d01, d20, d11, d02, d30, d21, d12, d03, d40, d31, d22, d13, d04, d50, d41, d32, d23, d14, d05⟩ := disc_vals r
  have hC := plateC_compact t r theta hr hc
  have hE0 := expands_solid _ hC 0
  rw [densityInner, show drilledSlab t r theta = {v : V3 | (v 2, (v 0, v 1)) ∈ plateC t r theta} from rfl, solidI_33 _ hC, pmX_30 hE0]
  simp only [QlmACH.plateCell, plate_mon t r theta ht hr hc, sum_range_succ, sum_range_zero, Nat.choose, Nat.reduceAdd, Nat.reduceSub, zero_add, add_zero,
    zint_val0, zint_val1, zint_val2, zint_val3, zint_val4, zint_val5, d00, d10, d01, d20, d11, d02, d30, d21, d12, d03, d40, d31, d22, d13, d04, d50, d41, d32, d23, d14, d05]
  push_cast
  ring

theorem plate_40 (rho t r theta : ℝ) (ht : 0 < t) (hr : 0 < r) (hc : 0 < Real.cos theta) :
    QlmACH.plateCell rho t r theta 4 0 = densityInner rho (drilledSlab t r theta) 4 ((0 : ℕ) : ℤ) := by
  obtain ⟨d00, d10, d01, d20, d11, d02, d30, d21, d12, d03, d40, d31, d22, d13, d04, d50, d41, d32, d23, d14, d05⟩ := disc_vals r
  have hC := plateC_compact t r theta hr hc
  have hE0 := expands_solid _ hC 0
  have hE2 := expands_solid _ hC 2
  have hE4 := expands_solid _ hC 4
  have hN : Nlm 4 ((0 : ℕ) : ℤ) = (36) / Real.sqrt Real.pi := by
    refine Nlm_sq 4 0 _ (by norm_num) (by positivity) ?_
    have h1 := Real.pi_pos
    simp only [div_pow, mul_pow]
    rw [Real.sq_sqrt (show (0 : ℝ) ≤ Real.pi by positivity)]
    norm_num [Nat.factorial]
    try field_simp
    try norm_num
  rw [densityInner, show drilledSlab t r theta = {v : V3 | (v 2, (v 0, v 1)) ∈ plateC t r theta} from rfl, solidI_40 _ hC, pmX_00 hE4, pmX_01 hE2, pmX_02 hE0, hN]
  simp only [QlmACH.plateCell, QlmACH.plate40, plate_mon t r theta ht hr hc, sum_range_succ, sum_range_zero, Nat.choose, Nat.reduceAdd, Nat.reduceSub, zero_add, add_zero,
    zint_val0, zint_val1, zint_val2, zint_val3, zint_val4, zint_val5, d00, d10, d01, d20, d11, d02, d30, d21, d12, d03, d40, d31, d22, d13, d04, d50, d41, d32, d23, d14, d05]
  rw [sqrt_pi_sec theta hc]
  have hp := sqrt_pi_ne
  have hpi : (Real.pi : ℂ) = (Real.sqrt Real.pi : ℂ) ^ 2 := by rw [← Complex.ofReal_pow, Real.sq_sqrt Real.pi_pos.le]
  have hU := one_add_tan_sq theta hc
  generalize Real.tan theta = T at *
  generalize 1 / Real.cos theta = U at *
  have hU3 : U ^ 3 = U * (1 + T ^ 2) := by rw [← hU]; ring
  have hU5 : U ^ 5 = U * (1 + T ^ 2) ^ 2 := by rw [← hU]; ring
  try simp only [hU3, hU5]
  push_cast
  rw [hpi]
  field_simp
  first | done | ring1 | (ring_nf; simp only [Complex.I_sq, Complex.I_pow_three, Complex.I_pow_four, Ipow5]; ring)

theorem plate_41 (rho t r theta : ℝ) (ht : 0 < t) (hr : 0 < r) (hc : 0 < Real.cos theta) :
    QlmACH.plateCell rho t r theta 4 1 = densityInner rho (drilledSlab t r theta) 4 ((1 : ℕ) : ℤ) := by
  obtain ⟨d00, d10, d01, d20, d11, d02, d30, d21, d12, d03, d40, d31, d22, d13, d04, d50, d41, d32, d23, d14, d05⟩ := disc_vals r
  have hC := plateC_compact t r theta hr hc
  have hE1 := expands_solid _ hC 1
  have hE3 := expands_solid _ hC 3
  have hN : Nlm 4 ((1 : ℕ) : ℤ) = (90) / (Real.sqrt (5) * Real.sqrt Real.pi) := by
    refine Nlm_sq 4 1 _ (by norm_num) (by positivity) ?_
    have h1 := Real.pi_pos
    simp only [div_pow, mul_pow]
    rw [Real.sq_sqrt (show (0 : ℝ) ≤ 5 by positivity)]
    rw [Real.sq_sqrt (show (0 : ℝ) ≤ Real.pi by positivity)]
    norm_num [Nat.factorial]
    try field_simp
    try norm_num
  rw [densityInner, show drilledSlab t r theta = {v : V3 | (v 2, (v 0, v 1)) ∈ plateC t r theta} from rfl, solidI_41 _ hC, pmX_10 hE3, pmX_11 hE1, hN]
  simp only [QlmACH.plateCell, QlmACH.plate41, plate_mon t r theta ht hr hc, sum_range_succ, sum_range_zero, Nat.choose, Nat.reduceAdd, Nat.reduceSub, zero_add, add_zero,
    zint_val0, zint_val1, zint_val2, zint_val3, zint_val4, zint_val5, d00, d10, d01, d20, d11, d02, d30, d21, d12, d03, d40, d31, d22, d13, d04, d50, d41, d32, d23, d14, d05]
  rw [sqrt_pi_sec theta hc]
  have hp := sqrt_pi_ne
  have hs := sqrt_cast_ne (5) (by positivity)
  have hpi : (Real.pi : ℂ) = (Real.sqrt Real.pi : ℂ) ^ 2 := by rw [← Complex.ofReal_pow, Real.sq_sqrt Real.pi_pos.le]
  have hU := one_add_tan_sq theta hc
  generalize Real.tan theta = T at *
  generalize 1 / Real.cos theta = U at *
  have hU3 : U ^ 3 = U * (1 + T ^ 2) := by rw [← hU]; ring
  have hU5 : U ^ 5 = U * (1 + T ^ 2) ^ 2 := by rw [← hU]; ring
  try simp only [hU3, hU5]
  push_cast
  rw [hpi]
  field_simp
  first | done | ring1 | (ring_nf; simp only [Complex.I_sq, Complex.I_pow_three, Complex.I_pow_four, Ipow5]; ring)

theorem plate_42 (rho t r theta : ℝ) (ht : 0 < t) (hr : 0 < r) (hc : 0 < Real.cos theta) :
    QlmACH.plateCell rho t r theta 4 2 = densityInner rho (drilledSlab t r theta) 4 ((2 : ℕ) : ℤ) := by
  obtain ⟨d00, d10, d01, d20, d11, d02, d30, d21, d12, d03, d40, d31, d22, d13, d04, d50, d41, d32, d23, d14, d05⟩ := disc_vals r
  have hC := plateC_compact t r theta hr hc
  have hE0 := expands_solid _ hC 0
  have hE2 := expands_solid _ hC 2
  have hN : Nlm 4 ((2 : ℕ) : ℤ) = (180) / (Real.sqrt (10) * Real.sqrt Real.pi) := by
    refine Nlm_sq 4 2 _ (by norm_num) (by positivity) ?_
    have h1 := Real.pi_pos
    simp only [div_pow, mul_pow]
    rw [Real.sq_sqrt (show (0 : ℝ) ≤ 10 by positivity)]
    rw [Real.sq_sqrt (show (0 : ℝ) ≤ Real.pi by positivity)]
    norm_num [Nat.factorial]
    try field_simp
    try norm_num
  rw [densityInner, show drilledSlab t r theta = {v : V3 | (v 2, (v 0, v 1)) ∈ plateC t r theta} from rfl, solidI_42 _ hC, pmX_20 hE2, pmX_21 hE0, hN]
  simp only [QlmACH.plateCell, QlmACH.plate42, plate_mon t r theta ht hr hc, sum_range_succ, sum_range_zero, Nat.choose, Nat.reduceAdd, Nat.reduceSub, zero_add, add_zero,
    zint_val0, zint_val1, zint_val2, zint_val3, zint_val4, zint_val5, d00, d10, d01, d20, d11, d02, d30, d21, d12, d03, d40, d31, d22, d13, d04, d50, d41, d32, d23, d14, d05]
  rw [sqrt_pi_sec theta hc]
  have hp := sqrt_pi_ne
  have hs := sqrt_cast_ne (10) (by positivity)
  have hpi : (Real.pi : ℂ) = (Real.sqrt Real.pi : ℂ) ^ 2 := by rw [← Complex.ofReal_pow, Real.sq_sqrt Real.pi_pos.le]
  have hU := one_add_tan_sq theta hc
  generalize Real.tan theta = T at *
  generalize 1 / Real.cos theta = U at *
  have hU3 : U ^ 3 = U * (1 + T ^ 2) := by rw [← hU]; ring
  have hU5 : U ^ 5 = U * (1 + T ^ 2) ^ 2 := by rw [← hU]; ring
  try simp only [hU3, hU5]
  push_cast
  rw [hpi]
  field_simp
  first | done | ring1 | (ring_nf; simp only [Complex.I_sq, Complex.I_pow_three, Complex.I_pow_four, Ipow5]; ring)

theorem plate_43 (rho t r theta : ℝ) (ht : 0 < t) (hr : 0 < r) (hc : 0 < Real.cos theta) :
    QlmACH.plateCell rho t r theta 4 3 = densityInner rho (drilledSlab t r theta) 4 ((3 : ℕ) : ℤ) := by
  obtain ⟨d00, d10, d01, d20, d11, d02, d30, d21, d12, d03, d40, d31, d22, d13, d04, d50, d41, d32, d23, d14, d05⟩ := disc_vals r
  have hC := plateC_compact t r theta hr hc
  have hE1 := expands_solid _ hC 1
  have hN : Nlm 4 ((3 : ℕ) : ℤ) = (90) * Real.sqrt (7 / 5) / Real.sqrt Real.pi := by
    refine Nlm_sq 4 3 _ (by norm_num) (by positivity) ?_
    have h1 := Real.pi_pos
    simp only [div_pow, mul_pow]
    rw [Real.sq_sqrt (show (0 : ℝ) ≤ 7 / 5 by positivity)]
    rw [Real.sq_sqrt (show (0 : ℝ) ≤ Real.pi by positivity)]
    norm_num [Nat.factorial]
    try field_simp
    try norm_num
  rw [densityInner, show drilledSlab t r theta = {v : V3 | (v 2, (v 0, v 1)) ∈ plateC t r theta} from rfl, solidI_43 _ hC, pmX_30 hE1, hN]
  simp only [QlmACH.plateCell, QlmACH.plate43, plate_mon t r theta ht hr hc, sum_range_succ, sum_range_zero, Nat.choose, Nat.reduceAdd, Nat.reduceSub, zero_add, add_zero,
    zint_val0, zint_val1, zint_val2, zint_val3, zint_val4, zint_val5, d00, d10, d01, d20, d11, d02, d30, d21, d12, d03, d40, d31, d22, d13, d04, d50, d41, d32, d23, d14, d05]
  rw [sqrt_pi_sec theta hc]
  have hp := sqrt_pi_ne
  have hs := sqrt_cast_ne (7 / 5) (by positivity)
  have hpi : (Real.pi : ℂ) = (Real.sqrt Real.pi : ℂ) ^ 2 := by rw [← Complex.ofReal_pow, Real.sq_sqrt Real.pi_pos.le]
  have hU := one_add_tan_sq theta hc
  generalize Real.tan theta = T at *
  generalize 1 / Real.cos theta = U at *
  have hU3 : U ^ 3 = U * (1 + T ^ 2) := by rw [← hU]; ring
  have hU5 : U ^ 5 = U * (1 + T ^ 2) ^ 2 := by rw [← hU]; ring
  try simp only [hU3, hU5]
  push_cast
  rw [hpi]
  field_simp
  first | done | ring1 | (ring_nf; simp only [Complex.I_sq, Complex.I_pow_three, Complex.I_pow_four, Ipow5]; ring)

theorem plate_44 (rho t r theta : ℝ) (ht : 0 < t) (hr : 0 < r) (hc : 0 < Real.cos theta) :
    QlmACH.plateCell rho t r theta 4 4 = densityInner rho (drilledSlab t r theta) 4 ((4 : ℕ) : ℤ) := by
  obtain ⟨d00, d10, d01, d20, d11, d02, d30, d21, d12, d03, d40, d31, d22, d13, d04, d50, d41, d32, d23, d14, d05⟩ := disc_vals r
  have hC := plateC_compact t r theta hr hc
  have hE0 := expands_solid _ hC 0
  have hN : Nlm 4 ((4 : ℕ) : ℤ) = (360) * Real.sqrt (7 / 10) / Real.sqrt Real.pi := by
    refine Nlm_sq 4 4 _ (by norm_num) (by positivity) ?_
    have h1 := Real.pi_pos
    simp only [div_pow, mul_pow]
    rw [Real.sq_sqrt (show (0 : ℝ) ≤ 7 / 10 by positivity)]
    rw [Real.sq_sqrt (show (0 : ℝ) ≤ Real.pi by positivity)]
    norm_num [Nat.factorial]
    try field_simp
    try norm_num
  rw [densityInner, show drilledSlab t r theta = {v : V3 | (v 2, (v 0, v 1)) ∈ plateC t r theta} from rfl, solidI_44 _ hC, pmX_40 hE0, hN]
  simp only [QlmACH.plateCell, QlmACH.plate44, plate_mon t r theta ht hr hc, sum_range_succ, sum_range_zero, Nat.choose, Nat.reduceAdd, Nat.reduceSub, zero_add, add_zero,
    zint_val0, zint_val1, zint_val2, zint_val3, zint_val4, zint_val5, d00, d10, d01, d20, d11, d02, d30, d21, d12, d03, d40, d31, d22, d13, d04, d50, d41, d32, d23, d14, d05]
  rw [sqrt_pi_sec theta hc]
  have hp := sqrt_pi_ne
  have hs := sqrt_cast_ne (7 / 10) (by positivity)
  have hpi : (Real.pi : ℂ) = (Real.sqrt Real.pi : ℂ) ^ 2 := by rw [← Complex.ofReal_pow, Real.sq_sqrt Real.pi_pos.le]
  have hU := one_add_tan_sq theta hc
  generalize Real.tan theta = T at *
  generalize 1 / Real.cos theta = U at *
  have hU3 : U ^ 3 = U * (1 + T ^ 2) := by rw [← hU]; ring
  have hU5 : U ^ 5 = U * (1 + T ^ 2) ^ 2 := by rw [← hU]; ring
  try simp only [hU3, hU5]
  push_cast
  rw [hpi]
  field_simp
  first | done | ring1 | (ring_nf; simp only [Complex.I_sq, Complex.I_pow_three, Complex.I_pow_four, Ipow5]; ring)

theorem plate_50 (rho t r theta : ℝ) (ht : 0 < t) (hr : 0 < r) (hc : 0 < Real.cos theta) :
    QlmACH.plateCell rho t r theta 5 0 = densityInner rho (drilledSlab t r theta) 5 ((0 : ℕ) : ℤ) := by
  obtain ⟨d00, d10, d01, d20, d11, d02, d30, d21, d12, d03, d40, d31, d22, d13, d04, d50, d41, d32, d23, d14, d05⟩ := disc_vals r
  have hC := plateC_compact t r theta hr hc
  have hE1 := expands_solid _ hC 1
  have hE3 := expands_solid _ hC 3
  have hE5 := expands_solid _ hC 5
  rw [densityInner, show drilledSlab t r theta = {v : V3 | (v 2, (v 0, v 1)) ∈ plateC t r theta} from rfl, solidI_50 _ hC, pmX_00 hE5, pmX_01 hE3, pmX_02 hE1]
  simp only [QlmACH.plateCell, plate_mon t r theta ht hr hc, sum_range_succ, sum_range_zero, Nat.choose, Nat.reduceAdd, Nat.reduceSub, zero_add, add_zero,
    zint_val0, zint_val1, zint_val2, zint_val3, zint_val4, zint_val5, d00, d10, d01, d20, d11, d02, d30, d21, d12, d03, d40, d31, d22, d13, d04, d50, d41, d32, d23, d14, d05]
  push_cast
  ring

theorem plate_51 (rho t r theta : ℝ) (ht : 0 < t) (hr : 0 < r) (hc : 0 < Real.cos theta) :
    QlmACH.plateCell rho t r theta 5 1 = densityInner rho (drilledSlab t r theta) 5 ((1 : ℕ) : ℤ) := by
  obtain ⟨d00, d10, d01, d20, d11, d02, d30, d21, d12, d03, d40, d31, d22, d13, d04, d50, d41, d32, d23, d14, d05⟩ := disc_vals r
  have hC := plateC_compact t r theta hr hc
  have hE0 := expands_solid _ hC 0
  have hE2 := expands_solid _ hC 2
  have hE4 := expands_solid _ hC 4
  rw [densityInner, show drilledSlab t r theta = {v : V3 | (v 2, (v 0, v 1)) ∈ plateC t r theta} from rfl, solidI_51 _ hC, pmX_10 hE4, pmX_11 hE2, pmX_12 hE0]
  simp only [QlmACH.plateCell, plate_mon t r theta ht hr hc, sum_range_succ, sum_range_zero, Nat.choose, Nat.reduceAdd, Nat.reduceSub, zero_add, add_zero,
    zint_val0, zint_val1, zint_val2, zint_val3, zint_val4, zint_val5, d00, d10, d01, d20, d11, d02, d30, d21, d12, d03, d40, d31, d22, d13, d04, d50, d41, d32, d23, d14, d05]
  push_cast
  ring

theorem plate_52 (rho t r theta : ℝ) (ht : 0 < t) (hr : 0 < r) (hc : 0 < Real.cos theta) :
    QlmACH.plateCell rho t r theta 5 2 = densityInner rho (drilledSlab t r theta) 5 ((2 : ℕ) : ℤ) := by
  obtain ⟨d00, d10, d01, d20, d11, d02, d30, d21, d12, d03, d40, d31, d22, d13, d04, d50, d41, d32, d23, d14, d05⟩ := disc_vals r
  have hC := plateC_compact t r theta hr hc
  have hE1 := expands_solid _ hC 1
  have hE3 := expands_solid _ hC 3
  rw [densityInner, show drilledSlab t r theta = {v : V3 | (v 2, (v 0, v 1)) ∈ plateC t r theta} from rfl, solidI_52 _ hC, pmX_20 hE3, pmX_21 hE1]
  simp only [QlmACH.plateCell, plate_mon t r theta ht hr hc, sum_range_succ, sum_range_zero, Nat.choose, Nat.reduceAdd, Nat.reduceSub, zero_add, add_zero,
    zint_val0, zint_val1, zint_val2, zint_val3, zint_val4, zint_val5, d00, d10, d01, d20, d11, d02, d30, d21, d12, d03, d40, d31, d22, d13, d04, d50, d41, d32, d23, d14, d05]
  push_cast
  ring

theorem plate_53 (rho t r theta : ℝ) (ht : 0 < t) (hr : 0 < r) (hc : 0 < Real.cos theta) :
    QlmACH.plateCell rho t r theta 5 3 = densityInner rho (drilledSlab t r theta) 5 ((3 : ℕ) : ℤ) := by
  obtain ⟨d00, d10, d01, d20, d11, d02, d30, d21, d12, d03, d40, d31, d22, d13, d04, d50, d41, d32, d23, d14, d05⟩ := disc_vals r
  have hC := plateC_compact t r theta hr hc
  have hE0 := expands_solid _ hC 0
  have hE2 := expands_solid _ hC 2
  rw [densityInner, show drilledSlab t r theta = {v : V3 | (v 2, (v 0, v 1)) ∈ plateC t r theta} from rfl, solidI_53 _ hC, pmX_30 hE2, pmX_31 hE0]
  simp only [QlmACH.plateCell, plate_mon t r theta ht hr hc, sum_range_succ, sum_range_zero, Nat.choose, Nat.reduceAdd, Nat.reduceSub, zero_add, add_zero,
    zint_val0, zint_val1, zint_val2, zint_val3, zint_val4, zint_val5, d00, d10, d01, d20, d11, d02, d30, d21, d12, d03, d40, d31, d22, d13, d04, d50, d41, d32, d23, d14, d05]
  push_cast
  ring

theorem plate_54 (rho t r theta : ℝ) (ht : 0 < t) (hr : 0 < r) (hc : 0 < Real.cos theta) :
    QlmACH.plateCell rho t r theta 5 4 = densityInner rho (drilledSlab t r theta) 5 ((4 : ℕ) : ℤ) := by
  obtain ⟨d00, d10, d01, d20, d11, d02, d30, d21, d12, d03, d40, d31, d22, d13, d04, d50, d41, d32, d23, d14, d05⟩ := disc_vals r
  have hC := plateC_compact t r theta hr hc
  have hE1 := expands_solid _ hC 1
  rw [densityInner, show drilledSlab t r theta = {v : V3 | (v 2, (v 0, v 1)) ∈ plateC t r theta} from rfl, solidI_54 _ hC, pmX_40 hE1]
  simp only [QlmACH.plateCell, plate_mon t r theta ht hr hc, sum_range_succ, sum_range_zero, Nat.choose, Nat.reduceAdd, Nat.reduceSub, zero_add, add_zero,
    zint_val0, zint_val1, zint_val2, zint_val3, zint_val4, zint_val5, d00, d10, d01, d20, d11, d02, d30, d21, d12, d03, d40, d31, d22, d13, d04, d50, d41, d32, d23, d14, d05]
  push_cast
  ring

theorem plate_55 (rho t r theta : ℝ) (ht : 0 < t) (hr : 0 < r) (hc : 0 < Real.cos theta) :
    QlmACH.plateCell rho t r theta 5 5 = densityInner rho (drilledSlab t r theta) 5 ((5 : ℕ) : ℤ) := by
  obtain ⟨d00, d10, d01, d20, d11, d02, d30, d21, d12, d03, d40, d31, d22, d13, d04, d50, d41, d32, d23, d14, d05⟩ := disc_vals r
  have hC := plateC_compact t r theta hr hc
  have hE0 := expands_solid _ hC 0
  rw [densityInner, show drilledSlab t r theta = {v : V3 | (v 2, (v 0, v 1)) ∈ plateC t r theta} from rfl, solidI_55 _ hC, pmX_50 hE0]
  simp only [QlmACH.plateCell, plate_mon t r theta ht hr hc, sum_range_succ, sum_range_zero, Nat.choose, Nat.reduceAdd, Nat.reduceSub, zero_add, add_zero,
    zint_val0, zint_val1, zint_val2, zint_val3, zint_val4, zint_val5, d00, d10, d01, d20, d11, d02, d30, d21, d12, d03, d40, d31, d22, d13, d04, d50, d41, d32, d23, d14, d05]
  push_cast
  ring

theorem plate_cells (rho t r theta : ℝ) (ht : 0 < t) (hr : 0 < r) (hc : 0 < Real.cos theta) (l m : ℕ) (hm : m ≤ l) (hl : l ≤ 5) :
    QlmACH.plateCell rho t r theta l m = densityInner rho (drilledSlab t r theta) l m := by
  refine cells21 (fun l m => QlmACH.plateCell rho t r theta l m = densityInner rho (drilledSlab t r theta) l ((m : ℕ) : ℤ))
    (plate_00 rho t r theta ht hr hc) (plate_10 rho t r theta ht hr hc) (plate_11 rho t r theta ht hr hc) (plate_20 rho t r theta ht hr hc) (plate_21 rho t r theta ht hr hc) (plate_22 rho t r theta ht hr hc) (plate_30 rho t r theta ht hr hc) (plate_31 rho t r theta ht hr hc) (plate_32 rho t r theta ht hr hc) (plate_33 rho t r theta ht hr hc) (plate_40 rho t r theta ht hr hc) (plate_41 rho t r theta ht hr hc) (plate_42 rho t r theta ht hr hc) (plate_43 rho t r theta ht hr hc) (plate_44 rho t r theta ht hr hc) (plate_50 rho t r theta ht hr hc) (plate_51 rho t r theta ht hr hc) (plate_52 rho t r theta ht hr hc) (plate_53 rho t r theta ht hr hc) (plate_54 rho t r theta ht hr hc) (plate_55 rho t r theta ht hr hc) l m hm hl

theorem plate_high (rho t r theta : ℝ) (l m : ℕ) (hl : 5 < l) : QlmACH.plateCell rho t r theta l m = 0 := by
  obtain ⟨k, rfl⟩ : ∃ k, l = k + 6 := ⟨l - 6, by omega⟩
  rfl

end Newt.Ach
