import Verif.Proofs.AchCylMon

/-! # The hole drilled into a cylinder: its moments in terms of three integrals -/

namespace Newt.Ach

open MeasureTheory Finset Spec

theorem cylm_000 (r R : ℝ) (hr : 0 < r) (hR : r ≤ R) : mon3 (cylC r R) 0 0 0 = 4 * (2 * r ^ 2 * R * tInt (r / R) 0) := by
  rw [show mon3 (cylC r R) 0 0 0 = mon3 (cylC r R) (2 * 0) (2 * 0) (2 * 0) from rfl, cyl_mon_even r R hr hR]
  simp only [wInt_eq r R hr hR, sum_range_succ, sum_range_zero, Nat.choose, Nat.reduceAdd, Nat.reduceSub, Nat.reduceMul, zero_add, add_zero]
  push_cast
  ring

theorem cylm_200 (r R : ℝ) (hr : 0 < r) (hR : r ≤ R) : mon3 (cylC r R) 2 0 0 = 4 / 3 * (R ^ 2 * (2 * r ^ 2 * R * tInt (r / R) 0) - (2 * r ^ 4 * R * tInt (r / R) 1)) := by
  rw [show mon3 (cylC r R) 2 0 0 = mon3 (cylC r R) (2 * 1) (2 * 0) (2 * 0) from rfl, cyl_mon_even r R hr hR]
  simp only [wInt_eq r R hr hR, sum_range_succ, sum_range_zero, Nat.choose, Nat.reduceAdd, Nat.reduceSub, Nat.reduceMul, zero_add, add_zero]
  push_cast
  ring

theorem cylm_020 (r R : ℝ) (hr : 0 < r) (hR : r ≤ R) : mon3 (cylC r R) 0 2 0 = 4 * (2 * r ^ 4 * R * tInt (r / R) 1) := by
  rw [show mon3 (cylC r R) 0 2 0 = mon3 (cylC r R) (2 * 0) (2 * 1) (2 * 0) from rfl, cyl_mon_even r R hr hR]
  simp only [wInt_eq r R hr hR, sum_range_succ, sum_range_zero, Nat.choose, Nat.reduceAdd, Nat.reduceSub, Nat.reduceMul, zero_add, add_zero]
  push_cast
  ring

theorem cylm_002 (r R : ℝ) (hr : 0 < r) (hR : r ≤ R) : mon3 (cylC r R) 0 0 2 = 4 / 3 * (r ^ 2 * (2 * r ^ 2 * R * tInt (r / R) 0) - (2 * r ^ 4 * R * tInt (r / R) 1)) := by
  rw [show mon3 (cylC r R) 0 0 2 = mon3 (cylC r R) (2 * 0) (2 * 0) (2 * 1) from rfl, cyl_mon_even r R hr hR]
  simp only [wInt_eq r R hr hR, sum_range_succ, sum_range_zero, Nat.choose, Nat.reduceAdd, Nat.reduceSub, Nat.reduceMul, zero_add, add_zero]
  push_cast
  ring

theorem cylm_400 (r R : ℝ) (hr : 0 < r) (hR : r ≤ R) : mon3 (cylC r R) 4 0 0 = 4 / 5 * (R ^ 4 * (2 * r ^ 2 * R * tInt (r / R) 0) - 2 * R ^ 2 * (2 * r ^ 4 * R * tInt (r / R) 1) + (2 * r ^ 6 * R * tInt (r / R) 2)) := by
  rw [show mon3 (cylC r R) 4 0 0 = mon3 (cylC r R) (2 * 2) (2 * 0) (2 * 0) from rfl, cyl_mon_even r R hr hR]
  simp only [wInt_eq r R hr hR, sum_range_succ, sum_range_zero, Nat.choose, Nat.reduceAdd, Nat.reduceSub, Nat.reduceMul, zero_add, add_zero]
  push_cast
  ring

theorem cylm_040 (r R : ℝ) (hr : 0 < r) (hR : r ≤ R) : mon3 (cylC r R) 0 4 0 = 4 * (2 * r ^ 6 * R * tInt (r / R) 2) := by
  rw [show mon3 (cylC r R) 0 4 0 = mon3 (cylC r R) (2 * 0) (2 * 2) (2 * 0) from rfl, cyl_mon_even r R hr hR]
  simp only [wInt_eq r R hr hR, sum_range_succ, sum_range_zero, Nat.choose, Nat.reduceAdd, Nat.reduceSub, Nat.reduceMul, zero_add, add_zero]
  push_cast
  ring

theorem cylm_004 (r R : ℝ) (hr : 0 < r) (hR : r ≤ R) : mon3 (cylC r R) 0 0 4 = 4 / 5 * (r ^ 4 * (2 * r ^ 2 * R * tInt (r / R) 0) - 2 * r ^ 2 * (2 * r ^ 4 * R * tInt (r / R) 1) + (2 * r ^ 6 * R * tInt (r / R) 2)) := by
  rw [show mon3 (cylC r R) 0 0 4 = mon3 (cylC r R) (2 * 0) (2 * 0) (2 * 2) from rfl, cyl_mon_even r R hr hR]
  simp only [wInt_eq r R hr hR, sum_range_succ, sum_range_zero, Nat.choose, Nat.reduceAdd, Nat.reduceSub, Nat.reduceMul, zero_add, add_zero]
  push_cast
  ring

theorem cylm_220 (r R : ℝ) (hr : 0 < r) (hR : r ≤ R) : mon3 (cylC r R) 2 2 0 = 4 / 3 * (R ^ 2 * (2 * r ^ 4 * R * tInt (r / R) 1) - (2 * r ^ 6 * R * tInt (r / R) 2)) := by
  rw [show mon3 (cylC r R) 2 2 0 = mon3 (cylC r R) (2 * 1) (2 * 1) (2 * 0) from rfl, cyl_mon_even r R hr hR]
  simp only [wInt_eq r R hr hR, sum_range_succ, sum_range_zero, Nat.choose, Nat.reduceAdd, Nat.reduceSub, Nat.reduceMul, zero_add, add_zero]
  push_cast
  ring

theorem cylm_202 (r R : ℝ) (hr : 0 < r) (hR : r ≤ R) : mon3 (cylC r R) 2 0 2 = 4 / 9 * (R ^ 2 * r ^ 2 * (2 * r ^ 2 * R * tInt (r / R) 0) - (R ^ 2 + r ^ 2) * (2 * r ^ 4 * R * tInt (r / R) 1) + (2 * r ^ 6 * R * tInt (r / R) 2)) := by
  rw [show mon3 (cylC r R) 2 0 2 = mon3 (cylC r R) (2 * 1) (2 * 0) (2 * 1) from rfl, cyl_mon_even r R hr hR]
  simp only [wInt_eq r R hr hR, sum_range_succ, sum_range_zero, Nat.choose, Nat.reduceAdd, Nat.reduceSub, Nat.reduceMul, zero_add, add_zero]
  push_cast
  ring

theorem cylm_022 (r R : ℝ) (hr : 0 < r) (hR : r ≤ R) : mon3 (cylC r R) 0 2 2 = 4 / 3 * (r ^ 2 * (2 * r ^ 4 * R * tInt (r / R) 1) - (2 * r ^ 6 * R * tInt (r / R) 2)) := by
  rw [show mon3 (cylC r R) 0 2 2 = mon3 (cylC r R) (2 * 0) (2 * 1) (2 * 1) from rfl, cyl_mon_even r R hr hR]
  simp only [wInt_eq r R hr hR, sum_range_succ, sum_range_zero, Nat.choose, Nat.reduceAdd, Nat.reduceSub, Nat.reduceMul, zero_add, add_zero]
  push_cast
  ring

theorem cylI_00 (r R : ℝ) (hr : 0 < r) (hR : r ≤ R) :
    ∫ v in drilledYCylinder r R, solidS 0 ((0 : ℕ) : ℤ) v = (Nlm 0 ((0 : ℕ) : ℤ) : ℂ) * (((1) * (4 * (2 * r ^ 2 * R * tInt (r / R) 0)) : ℝ) : ℂ) := by
  have hC := cylC_compact r R hr (by linarith)
  have hE0 := expands_solid _ hC 0
  rw [show drilledYCylinder r R = {v : V3 | (v 2, (v 0, v 1)) ∈ cylC r R} from rfl, solidI_00 _ hC, pmX_00 hE0]
  simp only [cylm_000 r R hr hR]
  push_cast
  ring

theorem cylI_10 (r R : ℝ) (hr : 0 < r) (hR : r ≤ R) :
    ∫ v in drilledYCylinder r R, solidS 1 ((0 : ℕ) : ℤ) v = 0 := by
  have hC := cylC_compact r R hr (by linarith)
  have hE1 := expands_solid _ hC 1
  have o100 := cyl_mon_odd r R hr hR 1 0 0 (by norm_num)
  rw [show drilledYCylinder r R = {v : V3 | (v 2, (v 0, v 1)) ∈ cylC r R} from rfl, solidI_10 _ hC, pmX_00 hE1]
  simp only [o100]
  push_cast
  ring

theorem cylI_11 (r R : ℝ) (hr : 0 < r) (hR : r ≤ R) :
    ∫ v in drilledYCylinder r R, solidS 1 ((1 : ℕ) : ℤ) v = 0 := by
  have hC := cylC_compact r R hr (by linarith)
  have hE0 := expands_solid _ hC 0
  have o001 := cyl_mon_odd r R hr hR 0 0 1 (by norm_num)
  have o010 := cyl_mon_odd r R hr hR 0 1 0 (by norm_num)
  rw [show drilledYCylinder r R = {v : V3 | (v 2, (v 0, v 1)) ∈ cylC r R} from rfl, solidI_11 _ hC, pmX_10 hE0]
  simp only [o001, o010]
  push_cast
  ring

theorem cylI_20 (r R : ℝ) (hr : 0 < r) (hR : r ≤ R) :
    ∫ v in drilledYCylinder r R, solidS 2 ((0 : ℕ) : ℤ) v = (Nlm 2 ((0 : ℕ) : ℤ) : ℂ) * (((1 / 2) * (4 / 3 * (R ^ 2 * (2 * r ^ 2 * R * tInt (r / R) 0) - (2 * r ^ 4 * R * tInt (r / R) 1))) + (-1 / 4) * (4 * (2 * r ^ 4 * R * tInt (r / R) 1)) + (-1 / 4) * (4 / 3 * (r ^ 2 * (2 * r ^ 2 * R * tInt (r / R) 0) - (2 * r ^ 4 * R * tInt (r / R) 1))) : ℝ) : ℂ) := by
  have hC := cylC_compact r R hr (by linarith)
  have hE0 := expands_solid _ hC 0
  have hE2 := expands_solid _ hC 2
  have o011 := cyl_mon_odd r R hr hR 0 1 1 (by norm_num)
  rw [show drilledYCylinder r R = {v : V3 | (v 2, (v 0, v 1)) ∈ cylC r R} from rfl, solidI_20 _ hC, pmX_00 hE2, pmX_01 hE0]
  simp only [o011, cylm_200 r R hr hR, cylm_002 r R hr hR, cylm_020 r R hr hR]
  push_cast
  ring

theorem cylI_21 (r R : ℝ) (hr : 0 < r) (hR : r ≤ R) :
    ∫ v in drilledYCylinder r R, solidS 2 ((1 : ℕ) : ℤ) v = 0 := by
  have hC := cylC_compact r R hr (by linarith)
  have hE1 := expands_solid _ hC 1
  have o101 := cyl_mon_odd r R hr hR 1 0 1 (by norm_num)
  have o110 := cyl_mon_odd r R hr hR 1 1 0 (by norm_num)
  rw [show drilledYCylinder r R = {v : V3 | (v 2, (v 0, v 1)) ∈ cylC r R} from rfl, solidI_21 _ hC, pmX_10 hE1]
  simp only [o101, o110]
  push_cast
  ring

theorem cylI_22 (r R : ℝ) (hr : 0 < r) (hR : r ≤ R) :
    ∫ v in drilledYCylinder r R, solidS 2 ((2 : ℕ) : ℤ) v = (Nlm 2 ((2 : ℕ) : ℤ) : ℂ) * (((1 / 8) * (4 * (2 * r ^ 4 * R * tInt (r / R) 1)) + (-1 / 8) * (4 / 3 * (r ^ 2 * (2 * r ^ 2 * R * tInt (r / R) 0) - (2 * r ^ 4 * R * tInt (r / R) 1))) : ℝ) : ℂ) := by
  have hC := cylC_compact r R hr (by linarith)
  have hE0 := expands_solid _ hC 0
  have o011 := cyl_mon_odd r R hr hR 0 1 1 (by norm_num)
  rw [show drilledYCylinder r R = {v : V3 | (v 2, (v 0, v 1)) ∈ cylC r R} from rfl, solidI_22 _ hC, pmX_20 hE0]
  simp only [o011, cylm_002 r R hr hR, cylm_020 r R hr hR]
  push_cast
  ring

theorem cylI_30 (r R : ℝ) (hr : 0 < r) (hR : r ≤ R) :
    ∫ v in drilledYCylinder r R, solidS 3 ((0 : ℕ) : ℤ) v = 0 := by
  have hC := cylC_compact r R hr (by linarith)
  have hE1 := expands_solid _ hC 1
  have hE3 := expands_solid _ hC 3
  have o300 := cyl_mon_odd r R hr hR 3 0 0 (by norm_num)
  have o102 := cyl_mon_odd r R hr hR 1 0 2 (by norm_num)
  have o111 := cyl_mon_odd r R hr hR 1 1 1 (by norm_num)
  have o120 := cyl_mon_odd r R hr hR 1 2 0 (by norm_num)
  rw [show drilledYCylinder r R = {v : V3 | (v 2, (v 0, v 1)) ∈ cylC r R} from rfl, solidI_30 _ hC, pmX_00 hE3, pmX_01 hE1]
  simp only [o300, o102, o111, o120]
  push_cast
  ring

theorem cylI_31 (r R : ℝ) (hr : 0 < r) (hR : r ≤ R) :
    ∫ v in drilledYCylinder r R, solidS 3 ((1 : ℕ) : ℤ) v = 0 := by
  have hC := cylC_compact r R hr (by linarith)
  have hE0 := expands_solid _ hC 0
  have hE2 := expands_solid _ hC 2
  have o201 := cyl_mon_odd r R hr hR 2 0 1 (by norm_num)
  have o210 := cyl_mon_odd r R hr hR 2 1 0 (by norm_num)
  have o003 := cyl_mon_odd r R hr hR 0 0 3 (by norm_num)
  have o012 := cyl_mon_odd r R hr hR 0 1 2 (by norm_num)
  have o021 := cyl_mon_odd r R hr hR 0 2 1 (by norm_num)
  have o030 := cyl_mon_odd r R hr hR 0 3 0 (by norm_num)
  rw [show drilledYCylinder r R = {v : V3 | (v 2, (v 0, v 1)) ∈ cylC r R} from rfl, solidI_31 _ hC, pmX_10 hE2, pmX_11 hE0]
  simp only [o201, o210, o003, o012, o021, o030]
  push_cast
  ring

theorem cylI_32 (r R : ℝ) (hr : 0 < r) (hR : r ≤ R) :
    ∫ v in drilledYCylinder r R, solidS 3 ((2 : ℕ) : ℤ) v = 0 := by
  have hC := cylC_compact r R hr (by linarith)
  have hE1 := expands_solid _ hC 1
  have o102 := cyl_mon_odd r R hr hR 1 0 2 (by norm_num)
  have o111 := cyl_mon_odd r R hr hR 1 1 1 (by norm_num)
  have o120 := cyl_mon_odd r R hr hR 1 2 0 (by norm_num)
  rw [show drilledYCylinder r R = {v : V3 | (v 2, (v 0, v 1)) ∈ cylC r R} from rfl, solidI_32 _ hC, pmX_20 hE1]
  simp only [o102, o111, o120]
  push_cast
  ring

theorem cylI_33 (r R : ℝ) (hr : 0 < r) (hR : r ≤ R) :
    ∫ v in drilledYCylinder r R, solidS 3 ((3 : ℕ) : ℤ) v = 0 := by
  have hC := cylC_compact r R hr (by linarith)
  have hE0 := expands_solid _ hC 0
  have o003 := cyl_mon_odd r R hr hR 0 0 3 (by norm_num)
  have o012 := cyl_mon_odd r R hr hR 0 1 2 (by norm_num)
  have o021 := cyl_mon_odd r R hr hR 0 2 1 (by norm_num)
  have o030 := cyl_mon_odd r R hr hR 0 3 0 (by norm_num)
  rw [show drilledYCylinder r R = {v : V3 | (v 2, (v 0, v 1)) ∈ cylC r R} from rfl, solidI_33 _ hC, pmX_30 hE0]
  simp only [o003, o012, o021, o030]
  push_cast
  ring

theorem cylI_40 (r R : ℝ) (hr : 0 < r) (hR : r ≤ R) :
    ∫ v in drilledYCylinder r R, solidS 4 ((0 : ℕ) : ℤ) v = (Nlm 4 ((0 : ℕ) : ℤ) : ℂ) * (((1 / 24) * (4 / 5 * (R ^ 4 * (2 * r ^ 2 * R * tInt (r / R) 0) - 2 * R ^ 2 * (2 * r ^ 4 * R * tInt (r / R) 1) + (2 * r ^ 6 * R * tInt (r / R) 2))) + (-1 / 8) * (4 / 3 * (R ^ 2 * (2 * r ^ 4 * R * tInt (r / R) 1) - (2 * r ^ 6 * R * tInt (r / R) 2))) + (-1 / 8) * (4 / 9 * (R ^ 2 * r ^ 2 * (2 * r ^ 2 * R * tInt (r / R) 0) - (R ^ 2 + r ^ 2) * (2 * r ^ 4 * R * tInt (r / R) 1) + (2 * r ^ 6 * R * tInt (r / R) 2))) + (1 / 64) * (4 * (2 * r ^ 6 * R * tInt (r / R) 2)) + (1 / 32) * (4 / 3 * (r ^ 2 * (2 * r ^ 4 * R * tInt (r / R) 1) - (2 * r ^ 6 * R * tInt (r / R) 2))) + (1 / 64) * (4 / 5 * (r ^ 4 * (2 * r ^ 2 * R * tInt (r / R) 0) - 2 * r ^ 2 * (2 * r ^ 4 * R * tInt (r / R) 1) + (2 * r ^ 6 * R * tInt (r / R) 2))) : ℝ) : ℂ) := by
  have hC := cylC_compact r R hr (by linarith)
  have hE0 := expands_solid _ hC 0
  have hE2 := expands_solid _ hC 2
  have hE4 := expands_solid _ hC 4
  have o211 := cyl_mon_odd r R hr hR 2 1 1 (by norm_num)
  have o013 := cyl_mon_odd r R hr hR 0 1 3 (by norm_num)
  have o031 := cyl_mon_odd r R hr hR 0 3 1 (by norm_num)
  rw [show drilledYCylinder r R = {v : V3 | (v 2, (v 0, v 1)) ∈ cylC r R} from rfl, solidI_40 _ hC, pmX_00 hE4, pmX_01 hE2, pmX_02 hE0]
  simp only [o211, o013, o031, cylm_400 r R hr hR, cylm_202 r R hr hR, cylm_220 r R hr hR, cylm_004 r R hr hR, cylm_022 r R hr hR, cylm_040 r R hr hR]
  push_cast
  ring

theorem cylI_41 (r R : ℝ) (hr : 0 < r) (hR : r ≤ R) :
    ∫ v in drilledYCylinder r R, solidS 4 ((1 : ℕ) : ℤ) v = 0 := by
  have hC := cylC_compact r R hr (by linarith)
  have hE1 := expands_solid _ hC 1
  have hE3 := expands_solid _ hC 3
  have o301 := cyl_mon_odd r R hr hR 3 0 1 (by norm_num)
  have o310 := cyl_mon_odd r R hr hR 3 1 0 (by norm_num)
  have o103 := cyl_mon_odd r R hr hR 1 0 3 (by norm_num)
  have o112 := cyl_mon_odd r R hr hR 1 1 2 (by norm_num)
  have o121 := cyl_mon_odd r R hr hR 1 2 1 (by norm_num)
  have o130 := cyl_mon_odd r R hr hR 1 3 0 (by norm_num)
  rw [show drilledYCylinder r R = {v : V3 | (v 2, (v 0, v 1)) ∈ cylC r R} from rfl, solidI_41 _ hC, pmX_10 hE3, pmX_11 hE1]
  simp only [o301, o310, o103, o112, o121, o130]
  push_cast
  ring

theorem cylI_42 (r R : ℝ) (hr : 0 < r) (hR : r ≤ R) :
    ∫ v in drilledYCylinder r R, solidS 4 ((2 : ℕ) : ℤ) v = (Nlm 4 ((2 : ℕ) : ℤ) : ℂ) * (((1 / 16) * (4 / 3 * (R ^ 2 * (2 * r ^ 4 * R * tInt (r / R) 1) - (2 * r ^ 6 * R * tInt (r / R) 2))) + (-1 / 16) * (4 / 9 * (R ^ 2 * r ^ 2 * (2 * r ^ 2 * R * tInt (r / R) 0) - (R ^ 2 + r ^ 2) * (2 * r ^ 4 * R * tInt (r / R) 1) + (2 * r ^ 6 * R * tInt (r / R) 2))) + (-1 / 96) * (4 * (2 * r ^ 6 * R * tInt (r / R) 2)) + (1 / 96) * (4 / 5 * (r ^ 4 * (2 * r ^ 2 * R * tInt (r / R) 0) - 2 * r ^ 2 * (2 * r ^ 4 * R * tInt (r / R) 1) + (2 * r ^ 6 * R * tInt (r / R) 2))) : ℝ) : ℂ) := by
  have hC := cylC_compact r R hr (by linarith)
  have hE0 := expands_solid _ hC 0
  have hE2 := expands_solid _ hC 2
  have o211 := cyl_mon_odd r R hr hR 2 1 1 (by norm_num)
  have o013 := cyl_mon_odd r R hr hR 0 1 3 (by norm_num)
  have o031 := cyl_mon_odd r R hr hR 0 3 1 (by norm_num)
  rw [show drilledYCylinder r R = {v : V3 | (v 2, (v 0, v 1)) ∈ cylC r R} from rfl, solidI_42 _ hC, pmX_20 hE2, pmX_21 hE0]
  simp only [o211, o013, o031, cylm_202 r R hr hR, cylm_220 r R hr hR, cylm_004 r R hr hR, cylm_022 r R hr hR, cylm_040 r R hr hR]
  push_cast
  ring

theorem cylI_43 (r R : ℝ) (hr : 0 < r) (hR : r ≤ R) :
    ∫ v in drilledYCylinder r R, solidS 4 ((3 : ℕ) : ℤ) v = 0 := by
  have hC := cylC_compact r R hr (by linarith)
  have hE1 := expands_solid _ hC 1
  have o103 := cyl_mon_odd r R hr hR 1 0 3 (by norm_num)
  have o112 := cyl_mon_odd r R hr hR 1 1 2 (by norm_num)
  have o121 := cyl_mon_odd r R hr hR 1 2 1 (by norm_num)
  have o130 := cyl_mon_odd r R hr hR 1 3 0 (by norm_num)
  rw [show drilledYCylinder r R = {v : V3 | (v 2, (v 0, v 1)) ∈ cylC r R} from rfl, solidI_43 _ hC, pmX_30 hE1]
  simp only [o103, o112, o121, o130]
  push_cast
  ring

theorem cylI_44 (r R : ℝ) (hr : 0 < r) (hR : r ≤ R) :
    ∫ v in drilledYCylinder r R, solidS 4 ((4 : ℕ) : ℤ) v = (Nlm 4 ((4 : ℕ) : ℤ) : ℂ) * (((1 / 384) * (4 * (2 * r ^ 6 * R * tInt (r / R) 2)) + (-1 / 64) * (4 / 3 * (r ^ 2 * (2 * r ^ 4 * R * tInt (r / R) 1) - (2 * r ^ 6 * R * tInt (r / R) 2))) + (1 / 384) * (4 / 5 * (r ^ 4 * (2 * r ^ 2 * R * tInt (r / R) 0) - 2 * r ^ 2 * (2 * r ^ 4 * R * tInt (r / R) 1) + (2 * r ^ 6 * R * tInt (r / R) 2))) : ℝ) : ℂ) := by
  have hC := cylC_compact r R hr (by linarith)
  have hE0 := expands_solid _ hC 0
  have o013 := cyl_mon_odd r R hr hR 0 1 3 (by norm_num)
  have o031 := cyl_mon_odd r R hr hR 0 3 1 (by norm_num)
  rw [show drilledYCylinder r R = {v : V3 | (v 2, (v 0, v 1)) ∈ cylC r R} from rfl, solidI_44 _ hC, pmX_40 hE0]
  simp only [o013, o031, cylm_004 r R hr hR, cylm_022 r R hr hR, cylm_040 r R hr hR]
  push_cast
  ring

theorem cylI_50 (r R : ℝ) (hr : 0 < r) (hR : r ≤ R) :
    ∫ v in drilledYCylinder r R, solidS 5 ((0 : ℕ) : ℤ) v = 0 := by
  have hC := cylC_compact r R hr (by linarith)
  have hE1 := expands_solid _ hC 1
  have hE3 := expands_solid _ hC 3
  have hE5 := expands_solid _ hC 5
  have o500 := cyl_mon_odd r R hr hR 5 0 0 (by norm_num)
  have o302 := cyl_mon_odd r R hr hR 3 0 2 (by norm_num)
  have o311 := cyl_mon_odd r R hr hR 3 1 1 (by norm_num)
  have o320 := cyl_mon_odd r R hr hR 3 2 0 (by norm_num)
  have o104 := cyl_mon_odd r R hr hR 1 0 4 (by norm_num)
  have o113 := cyl_mon_odd r R hr hR 1 1 3 (by norm_num)
  have o122 := cyl_mon_odd r R hr hR 1 2 2 (by norm_num)
  have o131 := cyl_mon_odd r R hr hR 1 3 1 (by norm_num)
  have o140 := cyl_mon_odd r R hr hR 1 4 0 (by norm_num)
  rw [show drilledYCylinder r R = {v : V3 | (v 2, (v 0, v 1)) ∈ cylC r R} from rfl, solidI_50 _ hC, pmX_00 hE5, pmX_01 hE3, pmX_02 hE1]
  simp only [o500, o302, o311, o320, o104, o113, o122, o131, o140]
  push_cast
  ring

theorem cylI_51 (r R : ℝ) (hr : 0 < r) (hR : r ≤ R) :
    ∫ v in drilledYCylinder r R, solidS 5 ((1 : ℕ) : ℤ) v = 0 := by
  have hC := cylC_compact r R hr (by linarith)
  have hE0 := expands_solid _ hC 0
  have hE2 := expands_solid _ hC 2
  have hE4 := expands_solid _ hC 4
  have o401 := cyl_mon_odd r R hr hR 4 0 1 (by norm_num)
  have o410 := cyl_mon_odd r R hr hR 4 1 0 (by norm_num)
  have o203 := cyl_mon_odd r R hr hR 2 0 3 (by norm_num)
  have o212 := cyl_mon_odd r R hr hR 2 1 2 (by norm_num)
  have o221 := cyl_mon_odd r R hr hR 2 2 1 (by norm_num)
  have o230 := cyl_mon_odd r R hr hR 2 3 0 (by norm_num)
  have o005 := cyl_mon_odd r R hr hR 0 0 5 (by norm_num)
  have o014 := cyl_mon_odd r R hr hR 0 1 4 (by norm_num)
  have o023 := cyl_mon_odd r R hr hR 0 2 3 (by norm_num)
  have o032 := cyl_mon_odd r R hr hR 0 3 2 (by norm_num)
  have o041 := cyl_mon_odd r R hr hR 0 4 1 (by norm_num)
  have o050 := cyl_mon_odd r R hr hR 0 5 0 (by norm_num)
  rw [show drilledYCylinder r R = {v : V3 | (v 2, (v 0, v 1)) ∈ cylC r R} from rfl, solidI_51 _ hC, pmX_10 hE4, pmX_11 hE2, pmX_12 hE0]
  simp only [o401, o410, o203, o212, o221, o230, o005, o014, o023, o032, o041, o050]
  push_cast
  ring

theorem cylI_52 (r R : ℝ) (hr : 0 < r) (hR : r ≤ R) :
    ∫ v in drilledYCylinder r R, solidS 5 ((2 : ℕ) : ℤ) v = 0 := by
  have hC := cylC_compact r R hr (by linarith)
  have hE1 := expands_solid _ hC 1
  have hE3 := expands_solid _ hC 3
  have o302 := cyl_mon_odd r R hr hR 3 0 2 (by norm_num)
  have o311 := cyl_mon_odd r R hr hR 3 1 1 (by norm_num)
  have o320 := cyl_mon_odd r R hr hR 3 2 0 (by norm_num)
  have o104 := cyl_mon_odd r R hr hR 1 0 4 (by norm_num)
  have o113 := cyl_mon_odd r R hr hR 1 1 3 (by norm_num)
  have o122 := cyl_mon_odd r R hr hR 1 2 2 (by norm_num)
  have o131 := cyl_mon_odd r R hr hR 1 3 1 (by norm_num)
  have o140 := cyl_mon_odd r R hr hR 1 4 0 (by norm_num)
  rw [show drilledYCylinder r R = {v : V3 | (v 2, (v 0, v 1)) ∈ cylC r R} from rfl, solidI_52 _ hC, pmX_20 hE3, pmX_21 hE1]
  simp only [o302, o311, o320, o104, o113, o122, o131, o140]
  push_cast
  ring

theorem cylI_53 (r R : ℝ) (hr : 0 < r) (hR : r ≤ R) :
    ∫ v in drilledYCylinder r R, solidS 5 ((3 : ℕ) : ℤ) v = 0 := by
  have hC := cylC_compact r R hr (by linarith)
  have hE0 := expands_solid _ hC 0
  have hE2 := expands_solid _ hC 2
  have o203 := cyl_mon_odd r R hr hR 2 0 3 (by norm_num)
  have o212 := cyl_mon_odd r R hr hR 2 1 2 (by norm_num)
  have o221 := cyl_mon_odd r R hr hR 2 2 1 (by norm_num)
  have o230 := cyl_mon_odd r R hr hR 2 3 0 (by norm_num)
  have o005 := cyl_mon_odd r R hr hR 0 0 5 (by norm_num)
  have o014 := cyl_mon_odd r R hr hR 0 1 4 (by norm_num)
  have o023 := cyl_mon_odd r R hr hR 0 2 3 (by norm_num)
  have o032 := cyl_mon_odd r R hr hR 0 3 2 (by norm_num)
  have o041 := cyl_mon_odd r R hr hR 0 4 1 (by norm_num)
  have o050 := cyl_mon_odd r R hr hR 0 5 0 (by norm_num)
  rw [show drilledYCylinder r R = {v : V3 | (v 2, (v 0, v 1)) ∈ cylC r R} from rfl, solidI_53 _ hC, pmX_30 hE2, pmX_31 hE0]
  simp only [o203, o212, o221, o230, o005, o014, o023, o032, o041, o050]
  push_cast
  ring

theorem cylI_54 (r R : ℝ) (hr : 0 < r) (hR : r ≤ R) :
    ∫ v in drilledYCylinder r R, solidS 5 ((4 : ℕ) : ℤ) v = 0 := by
  have hC := cylC_compact r R hr (by linarith)
  have hE1 := expands_solid _ hC 1
  have o104 := cyl_mon_odd r R hr hR 1 0 4 (by norm_num)
  have o113 := cyl_mon_odd r R hr hR 1 1 3 (by norm_num)
  have o122 := cyl_mon_odd r R hr hR 1 2 2 (by norm_num)
  have o131 := cyl_mon_odd r R hr hR 1 3 1 (by norm_num)
  have o140 := cyl_mon_odd r R hr hR 1 4 0 (by norm_num)
  rw [show drilledYCylinder r R = {v : V3 | (v 2, (v 0, v 1)) ∈ cylC r R} from rfl, solidI_54 _ hC, pmX_40 hE1]
  simp only [o104, o113, o122, o131, o140]
  push_cast
  ring

theorem cylI_55 (r R : ℝ) (hr : 0 < r) (hR : r ≤ R) :
    ∫ v in drilledYCylinder r R, solidS 5 ((5 : ℕ) : ℤ) v = 0 := by
  have hC := cylC_compact r R hr (by linarith)
  have hE0 := expands_solid _ hC 0
  have o005 := cyl_mon_odd r R hr hR 0 0 5 (by norm_num)
  have o014 := cyl_mon_odd r R hr hR 0 1 4 (by norm_num)
  have o023 := cyl_mon_odd r R hr hR 0 2 3 (by norm_num)
  have o032 := cyl_mon_odd r R hr hR 0 3 2 (by norm_num)
  have o041 := cyl_mon_odd r R hr hR 0 4 1 (by norm_num)
  have o050 := cyl_mon_odd r R hr hR 0 5 0 (by norm_num)
  rw [show drilledYCylinder r R = {v : V3 | (v 2, (v 0, v 1)) ∈ cylC r R} from rfl, solidI_55 _ hC, pmX_50 hE0]
  simp only [o005, o014, o023, o032, o041, o050]
  push_cast
  ring

end Newt.Ach
