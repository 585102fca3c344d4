import Verif.Proofs.AchPlane

/-! # Trap cells against the volume integrals -/

namespace Newt.Ach

open MeasureTheory Finset Spec

theorem trap_00 (rho t w D h : ℝ) (ht : 0 < t) (hw : 0 < w) (h1 : 0 ≤ w * (1 + D / 2)) (h2 : 0 ≤ w * (1 - D / 2)) (hh : 0 < h) :
    QlmACH.trapCell rho t (w * (1 + D / 2)) (w * (1 - D / 2)) h 0 0 = densityInner rho (prism t (trapezoid (w * (1 + D / 2)) (w * (1 - D / 2)) h)) 0 ((0 : ℕ) : ℤ) := by
  have hE := expands_trap2 (w * (1 + D / 2)) (w * (1 - D / 2)) h h1 h2 hh
  have hw1 : (w * (1 + D / 2) + w * (1 - D / 2)) / 2 = w := by ring
  have hw2 : (w * (1 + D / 2) - w * (1 - D / 2)) / w = D := by field_simp; ring
  have hN : Nlm 0 ((0 : ℕ) : ℤ) = (1 / 2) / Real.sqrt Real.pi := by
    refine Nlm_sq 0 0 _ (by norm_num) (by positivity) ?_
    have h1 := Real.pi_pos
    simp only [div_pow, mul_pow]
    rw [Real.sq_sqrt (show (0 : ℝ) ≤ Real.pi by positivity)]
    norm_num [Nat.factorial]
    try field_simp
    try norm_num
  rw [densityInner, prismI_00 t ht _ (trapezoid_compact _ _ h hh), pmX_00 hE, hN]
  simp only [QlmACH.trapCell, QlmACH.trap00, hw1, hw2, trapM, Nat.reduceMod, Nat.reduceAdd, Nat.reduceSub, sum_range_succ, sum_range_zero, Nat.choose, if_true, one_ne_zero, if_false]
  rw [sqrt_four_pi]
  have hp := sqrt_pi_ne
  push_cast
  field_simp
  try ring

theorem trap_10 (rho t w D h : ℝ) (ht : 0 < t) (hw : 0 < w) (h1 : 0 ≤ w * (1 + D / 2)) (h2 : 0 ≤ w * (1 - D / 2)) (hh : 0 < h) :
    QlmACH.trapCell rho t (w * (1 + D / 2)) (w * (1 - D / 2)) h 1 0 = densityInner rho (prism t (trapezoid (w * (1 + D / 2)) (w * (1 - D / 2)) h)) 1 ((0 : ℕ) : ℤ) := by
  have hE := expands_trap2 (w * (1 + D / 2)) (w * (1 - D / 2)) h h1 h2 hh
  have hw1 : (w * (1 + D / 2) + w * (1 - D / 2)) / 2 = w := by ring
  have hw2 : (w * (1 + D / 2) - w * (1 - D / 2)) / w = D := by field_simp; ring
  rw [densityInner, prismI_10 t ht _ (trapezoid_compact _ _ h hh), mul_zero]
  rfl

theorem trap_11 (rho t w D h : ℝ) (ht : 0 < t) (hw : 0 < w) (h1 : 0 ≤ w * (1 + D / 2)) (h2 : 0 ≤ w * (1 - D / 2)) (hh : 0 < h) :
    QlmACH.trapCell rho t (w * (1 + D / 2)) (w * (1 - D / 2)) h 1 1 = densityInner rho (prism t (trapezoid (w * (1 + D / 2)) (w * (1 - D / 2)) h)) 1 ((1 : ℕ) : ℤ) := by
  have hE := expands_trap2 (w * (1 + D / 2)) (w * (1 - D / 2)) h h1 h2 hh
  have hw1 : (w * (1 + D / 2) + w * (1 - D / 2)) / 2 = w := by ring
  have hw2 : (w * (1 + D / 2) - w * (1 - D / 2)) / w = D := by field_simp; ring
  have hN : Nlm 1 ((1 : ℕ) : ℤ) = (3) / (Real.sqrt (6) * Real.sqrt Real.pi) := by
    refine Nlm_sq 1 1 _ (by norm_num) (by positivity) ?_
    have h1 := Real.pi_pos
    simp only [div_pow, mul_pow]
    rw [Real.sq_sqrt (show (0 : ℝ) ≤ 6 by positivity)]
    rw [Real.sq_sqrt (show (0 : ℝ) ≤ Real.pi by positivity)]
    norm_num [Nat.factorial]
    try field_simp
    try norm_num
  rw [densityInner, prismI_11 t ht _ (trapezoid_compact _ _ h hh), pmX_10 hE, hN]
  simp only [QlmACH.trapCell, QlmACH.trap11, hw1, hw2, trapM, Nat.reduceMod, Nat.reduceAdd, Nat.reduceSub, sum_range_succ, sum_range_zero, Nat.choose, if_true, one_ne_zero, if_false]
  rw [sqrt_four_pi]
  have hp := sqrt_pi_ne
  have hs := sqrt_cast_ne (6) (by positivity)
  push_cast
  field_simp
  try ring

theorem trap_20 (rho t w D h : ℝ) (ht : 0 < t) (hw : 0 < w) (h1 : 0 ≤ w * (1 + D / 2)) (h2 : 0 ≤ w * (1 - D / 2)) (hh : 0 < h) :
    QlmACH.trapCell rho t (w * (1 + D / 2)) (w * (1 - D / 2)) h 2 0 = densityInner rho (prism t (trapezoid (w * (1 + D / 2)) (w * (1 - D / 2)) h)) 2 ((0 : ℕ) : ℤ) := by
  have hE := expands_trap2 (w * (1 + D / 2)) (w * (1 - D / 2)) h h1 h2 hh
  have hw1 : (w * (1 + D / 2) + w * (1 - D / 2)) / 2 = w := by ring
  have hw2 : (w * (1 + D / 2) - w * (1 - D / 2)) / w = D := by field_simp; ring
  have hN : Nlm 2 ((0 : ℕ) : ℤ) = (1) * Real.sqrt (5) / Real.sqrt Real.pi := by
    refine Nlm_sq 2 0 _ (by norm_num) (by positivity) ?_
    have h1 := Real.pi_pos
    simp only [div_pow, mul_pow]
    rw [Real.sq_sqrt (show (0 : ℝ) ≤ 5 by positivity)]
    rw [Real.sq_sqrt (show (0 : ℝ) ≤ Real.pi by positivity)]
    norm_num [Nat.factorial]
    try field_simp
    try norm_num
  rw [densityInner, prismI_20 t ht _ (trapezoid_compact _ _ h hh), pmX_00 hE, pmX_01 hE, hN]
  simp only [QlmACH.trapCell, QlmACH.trap20, hw1, hw2, trapM, Nat.reduceMod, Nat.reduceAdd, Nat.reduceSub, sum_range_succ, sum_range_zero, Nat.choose, if_true, one_ne_zero, if_false]
  rw [sqrt_four_pi]
  have hp := sqrt_pi_ne
  have hs := sqrt_cast_ne (5) (by positivity)
  push_cast
  field_simp
  try ring

theorem trap_21 (rho t w D h : ℝ) (ht : 0 < t) (hw : 0 < w) (h1 : 0 ≤ w * (1 + D / 2)) (h2 : 0 ≤ w * (1 - D / 2)) (hh : 0 < h) :
    QlmACH.trapCell rho t (w * (1 + D / 2)) (w * (1 - D / 2)) h 2 1 = densityInner rho (prism t (trapezoid (w * (1 + D / 2)) (w * (1 - D / 2)) h)) 2 ((1 : ℕ) : ℤ) := by
  have hE := expands_trap2 (w * (1 + D / 2)) (w * (1 - D / 2)) h h1 h2 hh
  have hw1 : (w * (1 + D / 2) + w * (1 - D / 2)) / 2 = w := by ring
  have hw2 : (w * (1 + D / 2) - w * (1 - D / 2)) / w = D := by field_simp; ring
  rw [densityInner, prismI_21 t ht _ (trapezoid_compact _ _ h hh), mul_zero]
  rfl

theorem trap_22 (rho t w D h : ℝ) (ht : 0 < t) (hw : 0 < w) (h1 : 0 ≤ w * (1 + D / 2)) (h2 : 0 ≤ w * (1 - D / 2)) (hh : 0 < h) :
    QlmACH.trapCell rho t (w * (1 + D / 2)) (w * (1 - D / 2)) h 2 2 = densityInner rho (prism t (trapezoid (w * (1 + D / 2)) (w * (1 - D / 2)) h)) 2 ((2 : ℕ) : ℤ) := by
  have hE := expands_trap2 (w * (1 + D / 2)) (w * (1 - D / 2)) h h1 h2 hh
  have hw1 : (w * (1 + D / 2) + w * (1 - D / 2)) / 2 = w := by ring
  have hw2 : (w * (1 + D / 2) - w * (1 - D / 2)) / w = D := by field_simp; ring
  have hN : Nlm 2 ((2 : ℕ) : ℤ) = (6) * Real.sqrt (5 / 6) / Real.sqrt Real.pi := by
    refine Nlm_sq 2 2 _ (by norm_num) (by positivity) ?_
    have h1 := Real.pi_pos
    simp only [div_pow, mul_pow]
    rw [Real.sq_sqrt (show (0 : ℝ) ≤ 5 / 6 by positivity)]
    rw [Real.sq_sqrt (show (0 : ℝ) ≤ Real.pi by positivity)]
    norm_num [Nat.factorial]
    try field_simp
    try norm_num
  rw [densityInner, prismI_22 t ht _ (trapezoid_compact _ _ h hh), pmX_20 hE, hN]
  simp only [QlmACH.trapCell, QlmACH.trap22, hw1, hw2, trapM, Nat.reduceMod, Nat.reduceAdd, Nat.reduceSub, sum_range_succ, sum_range_zero, Nat.choose, if_true, one_ne_zero, if_false]
  rw [sqrt_four_pi]
  have hp := sqrt_pi_ne
  have hs := sqrt_cast_ne (5 / 6) (by positivity)
  push_cast
  field_simp
  try ring

theorem trap_30 (rho t w D h : ℝ) (ht : 0 < t) (hw : 0 < w) (h1 : 0 ≤ w * (1 + D / 2)) (h2 : 0 ≤ w * (1 - D / 2)) (hh : 0 < h) :
    QlmACH.trapCell rho t (w * (1 + D / 2)) (w * (1 - D / 2)) h 3 0 = densityInner rho (prism t (trapezoid (w * (1 + D / 2)) (w * (1 - D / 2)) h)) 3 ((0 : ℕ) : ℤ) := by
  have hE := expands_trap2 (w * (1 + D / 2)) (w * (1 - D / 2)) h h1 h2 hh
  have hw1 : (w * (1 + D / 2) + w * (1 - D / 2)) / 2 = w := by ring
  have hw2 : (w * (1 + D / 2) - w * (1 - D / 2)) / w = D := by field_simp; ring
  rw [densityInner, prismI_30 t ht _ (trapezoid_compact _ _ h hh), mul_zero]
  rfl

theorem trap_31 (rho t w D h : ℝ) (ht : 0 < t) (hw : 0 < w) (h1 : 0 ≤ w * (1 + D / 2)) (h2 : 0 ≤ w * (1 - D / 2)) (hh : 0 < h) :
    QlmACH.trapCell rho t (w * (1 + D / 2)) (w * (1 - D / 2)) h 3 1 = densityInner rho (prism t (trapezoid (w * (1 + D / 2)) (w * (1 - D / 2)) h)) 3 ((1 : ℕ) : ℤ) := by
  have hE := expands_trap2 (w * (1 + D / 2)) (w * (1 - D / 2)) h h1 h2 hh
  have hw1 : (w * (1 + D / 2) + w * (1 - D / 2)) / 2 = w := by ring
  have hw2 : (w * (1 + D / 2) - w * (1 - D / 2)) / w = D := by field_simp; ring
  have hN : Nlm 3 ((1 : ℕ) : ℤ) = (6) * Real.sqrt (7 / 3) / Real.sqrt Real.pi := by
    refine Nlm_sq 3 1 _ (by norm_num) (by positivity) ?_
    have h1 := Real.pi_pos
    simp only [div_pow, mul_pow]
    rw [Real.sq_sqrt (show (0 : ℝ) ≤ 7 / 3 by positivity)]
    rw [Real.sq_sqrt (show (0 : ℝ) ≤ Real.pi by positivity)]
    norm_num [Nat.factorial]
    try field_simp
    try norm_num
  rw [densityInner, prismI_31 t ht _ (trapezoid_compact _ _ h hh), pmX_10 hE, pmX_11 hE, hN]
  simp only [QlmACH.trapCell, QlmACH.trap31, hw1, hw2, trapM, Nat.reduceMod, Nat.reduceAdd, Nat.reduceSub, sum_range_succ, sum_range_zero, Nat.choose, if_true, one_ne_zero, if_false]
  rw [sqrt_four_pi]
  have hp := sqrt_pi_ne
  have hs := sqrt_cast_ne (7 / 3) (by positivity)
  push_cast
  field_simp
  try ring

theorem trap_32 (rho t w D h : ℝ) (ht : 0 < t) (hw : 0 < w) (h1 : 0 ≤ w * (1 + D / 2)) (h2 : 0 ≤ w * (1 - D / 2)) (hh : 0 < h) :
    QlmACH.trapCell rho t (w * (1 + D / 2)) (w * (1 - D / 2)) h 3 2 = densityInner rho (prism t (trapezoid (w * (1 + D / 2)) (w * (1 - D / 2)) h)) 3 ((2 : ℕ) : ℤ) := by
  have hE := expands_trap2 (w * (1 + D / 2)) (w * (1 - D / 2)) h h1 h2 hh
  have hw1 : (w * (1 + D / 2) + w * (1 - D / 2)) / 2 = w := by ring
  have hw2 : (w * (1 + D / 2) - w * (1 - D / 2)) / w = D := by field_simp; ring
  rw [densityInner, prismI_32 t ht _ (trapezoid_compact _ _ h hh), mul_zero]
  rfl

theorem trap_33 (rho t w D h : ℝ) (ht : 0 < t) (hw : 0 < w) (h1 : 0 ≤ w * (1 + D / 2)) (h2 : 0 ≤ w * (1 - D / 2)) (hh : 0 < h) :
    QlmACH.trapCell rho t (w * (1 + D / 2)) (w * (1 - D / 2)) h 3 3 = densityInner rho (prism t (trapezoid (w * (1 + D / 2)) (w * (1 - D / 2)) h)) 3 ((3 : ℕ) : ℤ) := by
  have hE := expands_trap2 (w * (1 + D / 2)) (w * (1 - D / 2)) h h1 h2 hh
  have hw1 : (w * (1 + D / 2) + w * (1 - D / 2)) / 2 = w := by ring
  have hw2 : (w * (1 + D / 2) - w * (1 - D / 2)) / w = D := by field_simp; ring
  have hN : Nlm 3 ((3 : ℕ) : ℤ) = (30) * Real.sqrt (7 / 5) / Real.sqrt Real.pi := by
    refine Nlm_sq 3 3 _ (by norm_num) (by positivity) ?_
    have h1 := Real.pi_pos
    simp only [div_pow, mul_pow]
    rw [Real.sq_sqrt (show (0 : ℝ) ≤ 7 / 5 by positivity)]
    rw [Real.sq_sqrt (show (0 : ℝ) ≤ Real.pi by positivity)]
    norm_num [Nat.factorial]
    try field_simp
    try norm_num
  rw [densityInner, prismI_33 t ht _ (trapezoid_compact _ _ h hh), pmX_30 hE, hN]
  simp only [QlmACH.trapCell, QlmACH.trap33, hw1, hw2, trapM, Nat.reduceMod, Nat.reduceAdd, Nat.reduceSub, sum_range_succ, sum_range_zero, Nat.choose, if_true, one_ne_zero, if_false]
  rw [sqrt_four_pi]
  have hp := sqrt_pi_ne
  have hs := sqrt_cast_ne (7 / 5) (by positivity)
  push_cast
  field_simp
  try ring

theorem trap_40 (rho t w D h : ℝ) (ht : 0 < t) (hw : 0 < w) (h1 : 0 ≤ w * (1 + D / 2)) (h2 : 0 ≤ w * (1 - D / 2)) (hh : 0 < h) :
    QlmACH.trapCell rho t (w * (1 + D / 2)) (w * (1 - D / 2)) h 4 0 = densityInner rho (prism t (trapezoid (w * (1 + D / 2)) (w * (1 - D / 2)) h)) 4 ((0 : ℕ) : ℤ) := by
  have hE := expands_trap2 (w * (1 + D / 2)) (w * (1 - D / 2)) h h1 h2 hh
  have hw1 : (w * (1 + D / 2) + w * (1 - D / 2)) / 2 = w := by ring
  have hw2 : (w * (1 + D / 2) - w * (1 - D / 2)) / w = D := by field_simp; ring
  have hN : Nlm 4 ((0 : ℕ) : ℤ) = (36) / Real.sqrt Real.pi := by
    refine Nlm_sq 4 0 _ (by norm_num) (by positivity) ?_
    have h1 := Real.pi_pos
    simp only [div_pow, mul_pow]
    rw [Real.sq_sqrt (show (0 : ℝ) ≤ Real.pi by positivity)]
    norm_num [Nat.factorial]
    try field_simp
    try norm_num
  rw [densityInner, prismI_40 t ht _ (trapezoid_compact _ _ h hh), pmX_00 hE, pmX_01 hE, pmX_02 hE, hN]
  simp only [QlmACH.trapCell, QlmACH.trap40, hw1, hw2, trapM, Nat.reduceMod, Nat.reduceAdd, Nat.reduceSub, sum_range_succ, sum_range_zero, Nat.choose, if_true, one_ne_zero, if_false]
  rw [sqrt_four_pi]
  have hp := sqrt_pi_ne
  push_cast
  field_simp
  try ring

theorem trap_41 (rho t w D h : ℝ) (ht : 0 < t) (hw : 0 < w) (h1 : 0 ≤ w * (1 + D / 2)) (h2 : 0 ≤ w * (1 - D / 2)) (hh : 0 < h) :
    QlmACH.trapCell rho t (w * (1 + D / 2)) (w * (1 - D / 2)) h 4 1 = densityInner rho (prism t (trapezoid (w * (1 + D / 2)) (w * (1 - D / 2)) h)) 4 ((1 : ℕ) : ℤ) := by
  have hE := expands_trap2 (w * (1 + D / 2)) (w * (1 - D / 2)) h h1 h2 hh
  have hw1 : (w * (1 + D / 2) + w * (1 - D / 2)) / 2 = w := by ring
  have hw2 : (w * (1 + D / 2) - w * (1 - D / 2)) / w = D := by field_simp; ring
  rw [densityInner, prismI_41 t ht _ (trapezoid_compact _ _ h hh), mul_zero]
  rfl

theorem trap_42 (rho t w D h : ℝ) (ht : 0 < t) (hw : 0 < w) (h1 : 0 ≤ w * (1 + D / 2)) (h2 : 0 ≤ w * (1 - D / 2)) (hh : 0 < h) :
    QlmACH.trapCell rho t (w * (1 + D / 2)) (w * (1 - D / 2)) h 4 2 = densityInner rho (prism t (trapezoid (w * (1 + D / 2)) (w * (1 - D / 2)) h)) 4 ((2 : ℕ) : ℤ) := by
  have hE := expands_trap2 (w * (1 + D / 2)) (w * (1 - D / 2)) h h1 h2 hh
  have hw1 : (w * (1 + D / 2) + w * (1 - D / 2)) / 2 = w := by ring
  have hw2 : (w * (1 + D / 2) - w * (1 - D / 2)) / w = D := by field_simp; ring
  have hN : Nlm 4 ((2 : ℕ) : ℤ) = (180) / (Real.sqrt (10) * Real.sqrt Real.pi) := by
    refine Nlm_sq 4 2 _ (by norm_num) (by positivity) ?_
    have h1 := Real.pi_pos
    simp only [div_pow, mul_pow]
    rw [Real.sq_sqrt (show (0 : ℝ) ≤ 10 by positivity)]
    rw [Real.sq_sqrt (show (0 : ℝ) ≤ Real.pi by positivity)]
    norm_num [Nat.factorial]
    try field_simp
    try norm_num
  rw [densityInner, prismI_42 t ht _ (trapezoid_compact _ _ h hh), pmX_20 hE, pmX_21 hE, hN]
  simp only [QlmACH.trapCell, QlmACH.trap42, hw1, hw2, trapM, Nat.reduceMod, Nat.reduceAdd, Nat.reduceSub, sum_range_succ, sum_range_zero, Nat.choose, if_true, one_ne_zero, if_false]
  rw [sqrt_four_pi]
  have hp := sqrt_pi_ne
  have hs := sqrt_cast_ne (10) (by positivity)
  push_cast
  field_simp
  try ring

theorem trap_43 (rho t w D h : ℝ) (ht : 0 < t) (hw : 0 < w) (h1 : 0 ≤ w * (1 + D / 2)) (h2 : 0 ≤ w * (1 - D / 2)) (hh : 0 < h) :
    QlmACH.trapCell rho t (w * (1 + D / 2)) (w * (1 - D / 2)) h 4 3 = densityInner rho (prism t (trapezoid (w * (1 + D / 2)) (w * (1 - D / 2)) h)) 4 ((3 : ℕ) : ℤ) := by
  have hE := expands_trap2 (w * (1 + D / 2)) (w * (1 - D / 2)) h h1 h2 hh
  have hw1 : (w * (1 + D / 2) + w * (1 - D / 2)) / 2 = w := by ring
  have hw2 : (w * (1 + D / 2) - w * (1 - D / 2)) / w = D := by field_simp; ring
  rw [densityInner, prismI_43 t ht _ (trapezoid_compact _ _ h hh), mul_zero]
  rfl

theorem trap_44 (rho t w D h : ℝ) (ht : 0 < t) (hw : 0 < w) (h1 : 0 ≤ w * (1 + D / 2)) (h2 : 0 ≤ w * (1 - D / 2)) (hh : 0 < h) :
    QlmACH.trapCell rho t (w * (1 + D / 2)) (w * (1 - D / 2)) h 4 4 = densityInner rho (prism t (trapezoid (w * (1 + D / 2)) (w * (1 - D / 2)) h)) 4 ((4 : ℕ) : ℤ)
      - ((rho * h * t * w / Real.sqrt (4 * Real.pi) * Real.sqrt (7 / 10) / 64 * (48 * h ^ 4 - 40 * h ^ 2 * w ^ 2 + 3 * w ^ 4) : ℝ) : ℂ) := by
  have hE := expands_trap2 (w * (1 + D / 2)) (w * (1 - D / 2)) h h1 h2 hh
  have hw1 : (w * (1 + D / 2) + w * (1 - D / 2)) / 2 = w := by ring
  have hw2 : (w * (1 + D / 2) - w * (1 - D / 2)) / w = D := by field_simp; ring
  have hN : Nlm 4 ((4 : ℕ) : ℤ) = (360) * Real.sqrt (7 / 10) / Real.sqrt Real.pi := by
    refine Nlm_sq 4 4 _ (by norm_num) (by positivity) ?_
    have h1 := Real.pi_pos
    simp only [div_pow, mul_pow]
    rw [Real.sq_sqrt (show (0 : ℝ) ≤ 7 / 10 by positivity)]
    rw [Real.sq_sqrt (show (0 : ℝ) ≤ Real.pi by positivity)]
    norm_num [Nat.factorial]
    try field_simp
    try norm_num
  rw [densityInner, prismI_44 t ht _ (trapezoid_compact _ _ h hh), pmX_40 hE, hN]
  simp only [QlmACH.trapCell, QlmACH.trap44, hw1, hw2, trapM, Nat.reduceMod, Nat.reduceAdd, Nat.reduceSub, sum_range_succ, sum_range_zero, Nat.choose, if_true, one_ne_zero, if_false]
  rw [sqrt_four_pi]
  have hp := sqrt_pi_ne
  have hs := sqrt_cast_ne (7 / 10) (by positivity)
  push_cast
  field_simp
  try ring

theorem trap_50 (rho t w D h : ℝ) (ht : 0 < t) (hw : 0 < w) (h1 : 0 ≤ w * (1 + D / 2)) (h2 : 0 ≤ w * (1 - D / 2)) (hh : 0 < h) :
    QlmACH.trapCell rho t (w * (1 + D / 2)) (w * (1 - D / 2)) h 5 0 = densityInner rho (prism t (trapezoid (w * (1 + D / 2)) (w * (1 - D / 2)) h)) 5 ((0 : ℕ) : ℤ) := by
  have hE := expands_trap2 (w * (1 + D / 2)) (w * (1 - D / 2)) h h1 h2 hh
  have hw1 : (w * (1 + D / 2) + w * (1 - D / 2)) / 2 = w := by ring
  have hw2 : (w * (1 + D / 2) - w * (1 - D / 2)) / w = D := by field_simp; ring
  rw [densityInner, prismI_50 t ht _ (trapezoid_compact _ _ h hh), mul_zero]
  rfl

theorem trap_51 (rho t w D h : ℝ) (ht : 0 < t) (hw : 0 < w) (h1 : 0 ≤ w * (1 + D / 2)) (h2 : 0 ≤ w * (1 - D / 2)) (hh : 0 < h) :
    QlmACH.trapCell rho t (w * (1 + D / 2)) (w * (1 - D / 2)) h 5 1 = densityInner rho (prism t (trapezoid (w * (1 + D / 2)) (w * (1 - D / 2)) h)) 5 ((1 : ℕ) : ℤ) := by
  have hE := expands_trap2 (w * (1 + D / 2)) (w * (1 - D / 2)) h h1 h2 hh
  have hw1 : (w * (1 + D / 2) + w * (1 - D / 2)) / 2 = w := by ring
  have hw2 : (w * (1 + D / 2) - w * (1 - D / 2)) / w = D := by field_simp; ring
  have hN : Nlm 5 ((1 : ℕ) : ℤ) = (360) * Real.sqrt (11 / 30) / Real.sqrt Real.pi := by
    refine Nlm_sq 5 1 _ (by norm_num) (by positivity) ?_
    have h1 := Real.pi_pos
    simp only [div_pow, mul_pow]
    rw [Real.sq_sqrt (show (0 : ℝ) ≤ 11 / 30 by positivity)]
    rw [Real.sq_sqrt (show (0 : ℝ) ≤ Real.pi by positivity)]
    norm_num [Nat.factorial]
    try field_simp
    try norm_num
  rw [densityInner, prismI_51 t ht _ (trapezoid_compact _ _ h hh), pmX_10 hE, pmX_11 hE, pmX_12 hE, hN]
  simp only [QlmACH.trapCell, QlmACH.trap51, hw1, hw2, trapM, Nat.reduceMod, Nat.reduceAdd, Nat.reduceSub, sum_range_succ, sum_range_zero, Nat.choose, if_true, one_ne_zero, if_false]
  rw [sqrt_four_pi]
  have hp := sqrt_pi_ne
  have hs := sqrt_cast_ne (11 / 30) (by positivity)
  push_cast
  field_simp
  try ring

theorem trap_52 (rho t w D h : ℝ) (ht : 0 < t) (hw : 0 < w) (h1 : 0 ≤ w * (1 + D / 2)) (h2 : 0 ≤ w * (1 - D / 2)) (hh : 0 < h) :
    QlmACH.trapCell rho t (w * (1 + D / 2)) (w * (1 - D / 2)) h 5 2 = densityInner rho (prism t (trapezoid (w * (1 + D / 2)) (w * (1 - D / 2)) h)) 5 ((2 : ℕ) : ℤ) := by
  have hE := expands_trap2 (w * (1 + D / 2)) (w * (1 - D / 2)) h h1 h2 hh
  have hw1 : (w * (1 + D / 2) + w * (1 - D / 2)) / 2 = w := by ring
  have hw2 : (w * (1 + D / 2) - w * (1 - D / 2)) / w = D := by field_simp; ring
  rw [densityInner, prismI_52 t ht _ (trapezoid_compact _ _ h hh), mul_zero]
  rfl

theorem trap_53 (rho t w D h : ℝ) (ht : 0 < t) (hw : 0 < w) (h1 : 0 ≤ w * (1 + D / 2)) (h2 : 0 ≤ w * (1 - D / 2)) (hh : 0 < h) :
    QlmACH.trapCell rho t (w * (1 + D / 2)) (w * (1 - D / 2)) h 5 3 = densityInner rho (prism t (trapezoid (w * (1 + D / 2)) (w * (1 - D / 2)) h)) 5 ((3 : ℕ) : ℤ) := by
  have hE := expands_trap2 (w * (1 + D / 2)) (w * (1 - D / 2)) h h1 h2 hh
  have hw1 : (w * (1 + D / 2) + w * (1 - D / 2)) / 2 = w := by ring
  have hw2 : (w * (1 + D / 2) - w * (1 - D / 2)) / w = D := by field_simp; ring
  have hN : Nlm 5 ((3 : ℕ) : ℤ) = (840) * Real.sqrt (11 / 35) / Real.sqrt Real.pi := by
    refine Nlm_sq 5 3 _ (by norm_num) (by positivity) ?_
    have h1 := Real.pi_pos
    simp only [div_pow, mul_pow]
    rw [Real.sq_sqrt (show (0 : ℝ) ≤ 11 / 35 by positivity)]
    rw [Real.sq_sqrt (show (0 : ℝ) ≤ Real.pi by positivity)]
    norm_num [Nat.factorial]
    try field_simp
    try norm_num
  rw [densityInner, prismI_53 t ht _ (trapezoid_compact _ _ h hh), pmX_30 hE, pmX_31 hE, hN]
  simp only [QlmACH.trapCell, QlmACH.trap53, hw1, hw2, trapM, Nat.reduceMod, Nat.reduceAdd, Nat.reduceSub, sum_range_succ, sum_range_zero, Nat.choose, if_true, one_ne_zero, if_false]
  rw [sqrt_four_pi]
  have hp := sqrt_pi_ne
  have hs := sqrt_cast_ne (11 / 35) (by positivity)
  push_cast
  field_simp
  try ring

theorem trap_54 (rho t w D h : ℝ) (ht : 0 < t) (hw : 0 < w) (h1 : 0 ≤ w * (1 + D / 2)) (h2 : 0 ≤ w * (1 - D / 2)) (hh : 0 < h) :
    QlmACH.trapCell rho t (w * (1 + D / 2)) (w * (1 - D / 2)) h 5 4 = densityInner rho (prism t (trapezoid (w * (1 + D / 2)) (w * (1 - D / 2)) h)) 5 ((4 : ℕ) : ℤ) := by
  have hE := expands_trap2 (w * (1 + D / 2)) (w * (1 - D / 2)) h h1 h2 hh
  have hw1 : (w * (1 + D / 2) + w * (1 - D / 2)) / 2 = w := by ring
  have hw2 : (w * (1 + D / 2) - w * (1 - D / 2)) / w = D := by field_simp; ring
  rw [densityInner, prismI_54 t ht _ (trapezoid_compact _ _ h hh), mul_zero]
  rfl

theorem trap_55 (rho t w D h : ℝ) (ht : 0 < t) (hw : 0 < w) (h1 : 0 ≤ w * (1 + D / 2)) (h2 : 0 ≤ w * (1 - D / 2)) (hh : 0 < h) :
    QlmACH.trapCell rho t (w * (1 + D / 2)) (w * (1 - D / 2)) h 5 5 = densityInner rho (prism t (trapezoid (w * (1 + D / 2)) (w * (1 - D / 2)) h)) 5 ((5 : ℕ) : ℤ) := by
  have hE := expands_trap2 (w * (1 + D / 2)) (w * (1 - D / 2)) h h1 h2 hh
  have hw1 : (w * (1 + D / 2) + w * (1 - D / 2)) / 2 = w := by ring
  have hw2 : (w * (1 + D / 2) - w * (1 - D / 2)) / w = D := by field_simp; ring
  have hN : Nlm 5 ((5 : ℕ) : ℤ) = (2520) * Real.sqrt (11 / 7) / Real.sqrt Real.pi := by
    refine Nlm_sq 5 5 _ (by norm_num) (by positivity) ?_
    have h1 := Real.pi_pos
    simp only [div_pow, mul_pow]
    rw [Real.sq_sqrt (show (0 : ℝ) ≤ 11 / 7 by positivity)]
    rw [Real.sq_sqrt (show (0 : ℝ) ≤ Real.pi by positivity)]
    norm_num [Nat.factorial]
    try field_simp
    try norm_num
  rw [densityInner, prismI_55 t ht _ (trapezoid_compact _ _ h hh), pmX_50 hE, hN]
  simp only [QlmACH.trapCell, QlmACH.trap55, hw1, hw2, trapM, Nat.reduceMod, Nat.reduceAdd, Nat.reduceSub, sum_range_succ, sum_range_zero, Nat.choose, if_true, one_ne_zero, if_false]
  rw [sqrt_four_pi]
  have hp := sqrt_pi_ne
  have hs := sqrt_cast_ne (11 / 7) (by positivity)
  push_cast
  field_simp
  try ring

/-- The trapezoid in terms of its two parallel sides: every cell but (4, 4). -/
theorem trap_cells (rho t w1 w2 h : ℝ) (ht : 0 < t) (h1 : 0 ≤ w1) (h2 : 0 ≤ w2) (hw : w1 + w2 ≠ 0) (hh : 0 < h)
    (l m : ℕ) (hm : m ≤ l) (hl : l ≤ 5) (h44 : ¬ (l = 4 ∧ m = 4)) :
    QlmACH.trapCell rho t w1 w2 h l m = densityInner rho (prism t (trapezoid w1 w2 h)) l m := by
  have hw0 : 0 < (w1 + w2) / 2 := by
    rcases h1.lt_or_eq with h | h
    · linarith
    · rcases h2.lt_or_eq with h' | h'
      · linarith
      · exact absurd (by rw [← h, ← h', add_zero]) hw
  obtain ⟨w, D, e1, e2, hwp⟩ : ∃ w D : ℝ, w1 = w * (1 + D / 2) ∧ w2 = w * (1 - D / 2) ∧ 0 < w :=
    ⟨(w1 + w2) / 2, (w1 - w2) / ((w1 + w2) / 2), by field_simp; ring, by field_simp; ring, hw0⟩
  subst e1 e2
  refine cells21 (fun l m => ¬ (l = 4 ∧ m = 4) → QlmACH.trapCell rho t (w * (1 + D / 2)) (w * (1 - D / 2)) h l m
      = densityInner rho (prism t (trapezoid (w * (1 + D / 2)) (w * (1 - D / 2)) h)) l ((m : ℕ) : ℤ))
    (fun _ => trap_00 rho t w D h ht hwp h1 h2 hh) (fun _ => trap_10 rho t w D h ht hwp h1 h2 hh) (fun _ => trap_11 rho t w D h ht hwp h1 h2 hh) (fun _ => trap_20 rho t w D h ht hwp h1 h2 hh) (fun _ => trap_21 rho t w D h ht hwp h1 h2 hh) (fun _ => trap_22 rho t w D h ht hwp h1 h2 hh) (fun _ => trap_30 rho t w D h ht hwp h1 h2 hh) (fun _ => trap_31 rho t w D h ht hwp h1 h2 hh) (fun _ => trap_32 rho t w D h ht hwp h1 h2 hh) (fun _ => trap_33 rho t w D h ht hwp h1 h2 hh) (fun _ => trap_40 rho t w D h ht hwp h1 h2 hh) (fun _ => trap_41 rho t w D h ht hwp h1 h2 hh) (fun _ => trap_42 rho t w D h ht hwp h1 h2 hh) (fun _ => trap_43 rho t w D h ht hwp h1 h2 hh) (fun h => absurd ⟨rfl, rfl⟩ h) (fun _ => trap_50 rho t w D h ht hwp h1 h2 hh) (fun _ => trap_51 rho t w D h ht hwp h1 h2 hh) (fun _ => trap_52 rho t w D h ht hwp h1 h2 hh) (fun _ => trap_53 rho t w D h ht hwp h1 h2 hh) (fun _ => trap_54 rho t w D h ht hwp h1 h2 hh) (fun _ => trap_55 rho t w D h ht hwp h1 h2 hh) l m hm hl h44

theorem trap_cell44 (rho t w1 w2 h : ℝ) (ht : 0 < t) (h1 : 0 ≤ w1) (h2 : 0 ≤ w2) (hw : w1 + w2 ≠ 0) (hh : 0 < h) :
    QlmACH.trapCell rho t w1 w2 h 4 4 = densityInner rho (prism t (trapezoid w1 w2 h)) 4 4
      - ((rho * h * t * ((w1 + w2) / 2) / Real.sqrt (4 * Real.pi) * Real.sqrt (7 / 10) / 64
        * (48 * h ^ 4 - 40 * h ^ 2 * ((w1 + w2) / 2) ^ 2 + 3 * ((w1 + w2) / 2) ^ 4) : ℝ) : ℂ) := by
  have hw0 : 0 < (w1 + w2) / 2 := by
    rcases h1.lt_or_eq with h | h
    · linarith
    · rcases h2.lt_or_eq with h' | h'
      · linarith
      · exact absurd (by rw [← h, ← h', add_zero]) hw
  obtain ⟨w, D, e1, e2, hwp⟩ : ∃ w D : ℝ, w1 = w * (1 + D / 2) ∧ w2 = w * (1 - D / 2) ∧ 0 < w :=
    ⟨(w1 + w2) / 2, (w1 - w2) / ((w1 + w2) / 2), by field_simp; ring, by field_simp; ring, hw0⟩
  subst e1 e2
  have hw1 : (w * (1 + D / 2) + w * (1 - D / 2)) / 2 = w := by ring
  rw [hw1]
  exact trap_44 rho t w D h ht hwp h1 h2 hh

theorem trap_high (rho t w1 w2 h : ℝ) (l m : ℕ) (hl : 5 < l) : QlmACH.trapCell rho t w1 w2 h l m = 0 := by
  obtain ⟨k, rfl⟩ : ∃ k, l = k + 6 := ⟨l - 6, by omega⟩
  rfl

end Newt.Ach
