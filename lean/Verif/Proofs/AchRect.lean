import Verif.Proofs.AchPlane

/-! # Rect cells against the volume integrals -/

namespace Newt.Ach

open MeasureTheory Finset Spec

theorem rect_00 (rho x y z : ℝ) (hx : 0 < x) (hy : 0 < y) (hz : 0 < z) :
    QlmACH.rectCell rho x y z 0 0 = densityInner rho (prism z (rectangle x y)) 0 ((0 : ℕ) : ℤ) := by
  have hE := expands_rect x y hx hy
  have hN : Nlm 0 ((0 : ℕ) : ℤ) = (1 / 2) / Real.sqrt Real.pi := by
    refine Nlm_sq 0 0 _ (by norm_num) (by positivity) ?_
    have h1 := Real.pi_pos
    simp only [div_pow, mul_pow]
    rw [Real.sq_sqrt (show (0 : ℝ) ≤ Real.pi by positivity)]
    norm_num [Nat.factorial]
    try field_simp
    try norm_num
  rw [densityInner, prismI_00 z hz _ (rectangle_compact x y), pmX_00 hE, hN]
  simp only [QlmACH.rectCell, QlmACH.rect00, zint_val0, zint_val1, zint_val2, zint_val3, zint_val4, zint_val5]
  rw [sqrt_four_pi]
  have hp := sqrt_pi_ne
  push_cast
  field_simp
  try ring

theorem rect_10 (rho x y z : ℝ) (hx : 0 < x) (hy : 0 < y) (hz : 0 < z) :
    QlmACH.rectCell rho x y z 1 0 = densityInner rho (prism z (rectangle x y)) 1 ((0 : ℕ) : ℤ) := by
  have hE := expands_rect x y hx hy
  rw [densityInner, prismI_10 z hz _ (rectangle_compact x y), mul_zero]
  rfl

theorem rect_11 (rho x y z : ℝ) (hx : 0 < x) (hy : 0 < y) (hz : 0 < z) :
    QlmACH.rectCell rho x y z 1 1 = densityInner rho (prism z (rectangle x y)) 1 ((1 : ℕ) : ℤ) := by
  have hE := expands_rect x y hx hy
  rw [densityInner, prismI_11 z hz _ (rectangle_compact x y), pmX_10 hE]
  simp only [QlmACH.rectCell, zint_val0, zint_val1, zint_val2, zint_val3, zint_val4, zint_val5]
  push_cast
  try ring

theorem rect_20 (rho x y z : ℝ) (hx : 0 < x) (hy : 0 < y) (hz : 0 < z) :
    QlmACH.rectCell rho x y z 2 0 = densityInner rho (prism z (rectangle x y)) 2 ((0 : ℕ) : ℤ) := by
  have hE := expands_rect x y hx hy
  have hN : Nlm 2 ((0 : ℕ) : ℤ) = (1) * Real.sqrt (5) / Real.sqrt Real.pi := by
    refine Nlm_sq 2 0 _ (by norm_num) (by positivity) ?_
    have h1 := Real.pi_pos
    simp only [div_pow, mul_pow]
    rw [Real.sq_sqrt (show (0 : ℝ) ≤ 5 by positivity)]
    rw [Real.sq_sqrt (show (0 : ℝ) ≤ Real.pi by positivity)]
    norm_num [Nat.factorial]
    try field_simp
    try norm_num
  rw [densityInner, prismI_20 z hz _ (rectangle_compact x y), pmX_00 hE, pmX_01 hE, hN]
  simp only [QlmACH.rectCell, QlmACH.rect20, zint_val0, zint_val1, zint_val2, zint_val3, zint_val4, zint_val5]
  rw [sqrt_four_pi]
  have hp := sqrt_pi_ne
  have hs := sqrt_cast_ne (5) (by positivity)
  push_cast
  field_simp
  try ring

theorem rect_21 (rho x y z : ℝ) (hx : 0 < x) (hy : 0 < y) (hz : 0 < z) :
    QlmACH.rectCell rho x y z 2 1 = densityInner rho (prism z (rectangle x y)) 2 ((1 : ℕ) : ℤ) := by
  have hE := expands_rect x y hx hy
  rw [densityInner, prismI_21 z hz _ (rectangle_compact x y), mul_zero]
  rfl

theorem rect_22 (rho x y z : ℝ) (hx : 0 < x) (hy : 0 < y) (hz : 0 < z) :
    QlmACH.rectCell rho x y z 2 2 = densityInner rho (prism z (rectangle x y)) 2 ((2 : ℕ) : ℤ) := by
  have hE := expands_rect x y hx hy
  have hN : Nlm 2 ((2 : ℕ) : ℤ) = (6) * Real.sqrt (5 / 6) / Real.sqrt Real.pi := by
    refine Nlm_sq 2 2 _ (by norm_num) (by positivity) ?_
    have h1 := Real.pi_pos
    simp only [div_pow, mul_pow]
    rw [Real.sq_sqrt (show (0 : ℝ) ≤ 5 / 6 by positivity)]
    rw [Real.sq_sqrt (show (0 : ℝ) ≤ Real.pi by positivity)]
    norm_num [Nat.factorial]
    try field_simp
    try norm_num
  rw [densityInner, prismI_22 z hz _ (rectangle_compact x y), pmX_20 hE, hN]
  simp only [QlmACH.rectCell, QlmACH.rect22, zint_val0, zint_val1, zint_val2, zint_val3, zint_val4, zint_val5]
  rw [sqrt_four_pi]
  have hp := sqrt_pi_ne
  have hs := sqrt_cast_ne (5 / 6) (by positivity)
  push_cast
  field_simp
  try ring

theorem rect_30 (rho x y z : ℝ) (hx : 0 < x) (hy : 0 < y) (hz : 0 < z) :
    QlmACH.rectCell rho x y z 3 0 = densityInner rho (prism z (rectangle x y)) 3 ((0 : ℕ) : ℤ) := by
  have hE := expands_rect x y hx hy
  rw [densityInner, prismI_30 z hz _ (rectangle_compact x y), mul_zero]
  rfl

theorem rect_31 (rho x y z : ℝ) (hx : 0 < x) (hy : 0 < y) (hz : 0 < z) :
    QlmACH.rectCell rho x y z 3 1 = densityInner rho (prism z (rectangle x y)) 3 ((1 : ℕ) : ℤ) := by
  have hE := expands_rect x y hx hy
  rw [densityInner, prismI_31 z hz _ (rectangle_compact x y), pmX_10 hE, pmX_11 hE]
  simp only [QlmACH.rectCell, zint_val0, zint_val1, zint_val2, zint_val3, zint_val4, zint_val5]
  push_cast
  try ring

theorem rect_32 (rho x y z : ℝ) (hx : 0 < x) (hy : 0 < y) (hz : 0 < z) :
    QlmACH.rectCell rho x y z 3 2 = densityInner rho (prism z (rectangle x y)) 3 ((2 : ℕ) : ℤ) := by
  have hE := expands_rect x y hx hy
  rw [densityInner, prismI_32 z hz _ (rectangle_compact x y), mul_zero]
  rfl

theorem rect_33 (rho x y z : ℝ) (hx : 0 < x) (hy : 0 < y) (hz : 0 < z) :
    QlmACH.rectCell rho x y z 3 3 = densityInner rho (prism z (rectangle x y)) 3 ((3 : ℕ) : ℤ) := by
  have hE := expands_rect x y hx hy
  rw [densityInner, prismI_33 z hz _ (rectangle_compact x y), pmX_30 hE]
  simp only [QlmACH.rectCell, zint_val0, zint_val1, zint_val2, zint_val3, zint_val4, zint_val5]
  push_cast
  try ring

theorem rect_40 (rho x y z : ℝ) (hx : 0 < x) (hy : 0 < y) (hz : 0 < z) :
    QlmACH.rectCell rho x y z 4 0 = densityInner rho (prism z (rectangle x y)) 4 ((0 : ℕ) : ℤ) := by
  have hE := expands_rect x y hx hy
  have hN : Nlm 4 ((0 : ℕ) : ℤ) = (36) / Real.sqrt Real.pi := by
    refine Nlm_sq 4 0 _ (by norm_num) (by positivity) ?_
    have h1 := Real.pi_pos
    simp only [div_pow, mul_pow]
    rw [Real.sq_sqrt (show (0 : ℝ) ≤ Real.pi by positivity)]
    norm_num [Nat.factorial]
    try field_simp
    try norm_num
  rw [densityInner, prismI_40 z hz _ (rectangle_compact x y), pmX_00 hE, pmX_01 hE, pmX_02 hE, hN]
  simp only [QlmACH.rectCell, QlmACH.rect40, zint_val0, zint_val1, zint_val2, zint_val3, zint_val4, zint_val5]
  rw [sqrt_four_pi]
  have hp := sqrt_pi_ne
  push_cast
  field_simp
  try ring

theorem rect_41 (rho x y z : ℝ) (hx : 0 < x) (hy : 0 < y) (hz : 0 < z) :
    QlmACH.rectCell rho x y z 4 1 = densityInner rho (prism z (rectangle x y)) 4 ((1 : ℕ) : ℤ) := by
  have hE := expands_rect x y hx hy
  rw [densityInner, prismI_41 z hz _ (rectangle_compact x y), mul_zero]
  rfl

theorem rect_42 (rho x y z : ℝ) (hx : 0 < x) (hy : 0 < y) (hz : 0 < z) :
    QlmACH.rectCell rho x y z 4 2 = densityInner rho (prism z (rectangle x y)) 4 ((2 : ℕ) : ℤ) := by
  have hE := expands_rect x y hx hy
  have hN : Nlm 4 ((2 : ℕ) : ℤ) = (180) / (Real.sqrt (10) * Real.sqrt Real.pi) := by
    refine Nlm_sq 4 2 _ (by norm_num) (by positivity) ?_
    have h1 := Real.pi_pos
    simp only [div_pow, mul_pow]
    rw [Real.sq_sqrt (show (0 : ℝ) ≤ 10 by positivity)]
    rw [Real.sq_sqrt (show (0 : ℝ) ≤ Real.pi by positivity)]
    norm_num [Nat.factorial]
    try field_simp
    try norm_num
  rw [densityInner, prismI_42 z hz _ (rectangle_compact x y), pmX_20 hE, pmX_21 hE, hN]
  simp only [QlmACH.rectCell, QlmACH.rect42, zint_val0, zint_val1, zint_val2, zint_val3, zint_val4, zint_val5]
  rw [sqrt_four_pi]
  have hp := sqrt_pi_ne
  have hs := sqrt_cast_ne (10) (by positivity)
  push_cast
  field_simp
  try ring

theorem rect_43 (rho x y z : ℝ) (hx : 0 < x) (hy : 0 < y) (hz : 0 < z) :
    QlmACH.rectCell rho x y z 4 3 = densityInner rho (prism z (rectangle x y)) 4 ((3 : ℕ) : ℤ) := by
  have hE := expands_rect x y hx hy
  rw [densityInner, prismI_43 z hz _ (rectangle_compact x y), mul_zero]
  rfl

theorem rect_44 (rho x y z : ℝ) (hx : 0 < x) (hy : 0 < y) (hz : 0 < z) :
    QlmACH.rectCell rho x y z 4 4 = densityInner rho (prism z (rectangle x y)) 4 ((4 : ℕ) : ℤ) := by
  have hE := expands_rect x y hx hy
  have hN : Nlm 4 ((4 : ℕ) : ℤ) = (360) * Real.sqrt (7 / 10) / Real.sqrt Real.pi := by
    refine Nlm_sq 4 4 _ (by norm_num) (by positivity) ?_
    have h1 := Real.pi_pos
    simp only [div_pow, mul_pow]
    rw [Real.sq_sqrt (show (0 : ℝ) ≤ 7 / 10 by positivity)]
    rw [Real.sq_sqrt (show (0 : ℝ) ≤ Real.pi by positivity)]
    norm_num [Nat.factorial]
    try field_simp
    try norm_num
  rw [densityInner, prismI_44 z hz _ (rectangle_compact x y), pmX_40 hE, hN]
  simp only [QlmACH.rectCell, QlmACH.rect44, zint_val0, zint_val1, zint_val2, zint_val3, zint_val4, zint_val5]
  rw [sqrt_four_pi]
  have hp := sqrt_pi_ne
  have hs := sqrt_cast_ne (7 / 10) (by positivity)
  push_cast
  field_simp
  try ring

theorem rect_50 (rho x y z : ℝ) (hx : 0 < x) (hy : 0 < y) (hz : 0 < z) :
    QlmACH.rectCell rho x y z 5 0 = densityInner rho (prism z (rectangle x y)) 5 ((0 : ℕ) : ℤ) := by
  have hE := expands_rect x y hx hy
  rw [densityInner, prismI_50 z hz _ (rectangle_compact x y), mul_zero]
  rfl

theorem rect_51 (rho x y z : ℝ) (hx : 0 < x) (hy : 0 < y) (hz : 0 < z) :
    QlmACH.rectCell rho x y z 5 1 = densityInner rho (prism z (rectangle x y)) 5 ((1 : ℕ) : ℤ) := by
  have hE := expands_rect x y hx hy
  rw [densityInner, prismI_51 z hz _ (rectangle_compact x y), pmX_10 hE, pmX_11 hE, pmX_12 hE]
  simp only [QlmACH.rectCell, zint_val0, zint_val1, zint_val2, zint_val3, zint_val4, zint_val5]
  push_cast
  try ring

theorem rect_52 (rho x y z : ℝ) (hx : 0 < x) (hy : 0 < y) (hz : 0 < z) :
    QlmACH.rectCell rho x y z 5 2 = densityInner rho (prism z (rectangle x y)) 5 ((2 : ℕ) : ℤ) := by
  have hE := expands_rect x y hx hy
  rw [densityInner, prismI_52 z hz _ (rectangle_compact x y), mul_zero]
  rfl

theorem rect_53 (rho x y z : ℝ) (hx : 0 < x) (hy : 0 < y) (hz : 0 < z) :
    QlmACH.rectCell rho x y z 5 3 = densityInner rho (prism z (rectangle x y)) 5 ((3 : ℕ) : ℤ) := by
  have hE := expands_rect x y hx hy
  rw [densityInner, prismI_53 z hz _ (rectangle_compact x y), pmX_30 hE, pmX_31 hE]
  simp only [QlmACH.rectCell, zint_val0, zint_val1, zint_val2, zint_val3, zint_val4, zint_val5]
  push_cast
  try ring

theorem rect_54 (rho x y z : ℝ) (hx : 0 < x) (hy : 0 < y) (hz : 0 < z) :
    QlmACH.rectCell rho x y z 5 4 = densityInner rho (prism z (rectangle x y)) 5 ((4 : ℕ) : ℤ) := by
  have hE := expands_rect x y hx hy
  rw [densityInner, prismI_54 z hz _ (rectangle_compact x y), mul_zero]
  rfl

theorem rect_55 (rho x y z : ℝ) (hx : 0 < x) (hy : 0 < y) (hz : 0 < z) :
    QlmACH.rectCell rho x y z 5 5 = densityInner rho (prism z (rectangle x y)) 5 ((5 : ℕ) : ℤ) := by
  have hE := expands_rect x y hx hy
  rw [densityInner, prismI_55 z hz _ (rectangle_compact x y), pmX_50 hE]
  simp only [QlmACH.rectCell, zint_val0, zint_val1, zint_val2, zint_val3, zint_val4, zint_val5]
  push_cast
  try ring

theorem rect_cells (rho x y z : ℝ) (hx : 0 < x) (hy : 0 < y) (hz : 0 < z) (l m : ℕ) (hm : m ≤ l) (hl : l ≤ 5) :
    QlmACH.rectCell rho x y z l m = densityInner rho (prism z (rectangle x y)) l m := by
  refine cells21 (fun l m => QlmACH.rectCell rho x y z l m = densityInner rho (prism z (rectangle x y)) l ((m : ℕ) : ℤ))
    (rect_00 rho x y z hx hy hz) (rect_10 rho x y z hx hy hz) (rect_11 rho x y z hx hy hz) (rect_20 rho x y z hx hy hz) (rect_21 rho x y z hx hy hz) (rect_22 rho x y z hx hy hz) (rect_30 rho x y z hx hy hz) (rect_31 rho x y z hx hy hz) (rect_32 rho x y z hx hy hz) (rect_33 rho x y z hx hy hz) (rect_40 rho x y z hx hy hz) (rect_41 rho x y z hx hy hz) (rect_42 rho x y z hx hy hz) (rect_43 rho x y z hx hy hz) (rect_44 rho x y z hx hy hz) (rect_50 rho x y z hx hy hz) (rect_51 rho x y z hx hy hz) (rect_52 rho x y z hx hy hz) (rect_53 rho x y z hx hy hz) (rect_54 rho x y z hx hy hz) (rect_55 rho x y z hx hy hz) l m hm hl

theorem rect_high (rho x y z : ℝ) (l m : ℕ) (hl : 5 < l) : QlmACH.rectCell rho x y z l m = 0 := by
  obtain ⟨k, rfl⟩ : ∃ k, l = k + 6 := ⟨l - 6, by omega⟩
  rfl

theorem pyr_00 (rho h x y : ℝ) (hh : 0 < h) (hx : 0 < x) (hy : 0 < y) :
    QlmACH.pyrCell rho h x y 0 0 = densityInner rho (coneOver h (rectangle x y)) 0 ((0 : ℕ) : ℤ) := by
  have hE := expands_rect x y hx hy
  have hN : Nlm 0 ((0 : ℕ) : ℤ) = (1 / 2) / Real.sqrt Real.pi := by
    refine Nlm_sq 0 0 _ (by norm_num) (by positivity) ?_
    have h1 := Real.pi_pos
    simp only [div_pow, mul_pow]
    rw [Real.sq_sqrt (show (0 : ℝ) ≤ Real.pi by positivity)]
    norm_num [Nat.factorial]
    try field_simp
    try norm_num
  rw [densityInner, coneI_00 h hh _ (rectangle_compact x y), pmX_00 hE, hN]
  simp only [QlmACH.pyrCell, QlmACH.pyr00, zint_val0, zint_val1, zint_val2, zint_val3, zint_val4, zint_val5]
  have hp := sqrt_pi_ne
  push_cast
  field_simp
  try ring

theorem pyr_10 (rho h x y : ℝ) (hh : 0 < h) (hx : 0 < x) (hy : 0 < y) :
    QlmACH.pyrCell rho h x y 1 0 = densityInner rho (coneOver h (rectangle x y)) 1 ((0 : ℕ) : ℤ) := by
  have hE := expands_rect x y hx hy
  have hN : Nlm 1 ((0 : ℕ) : ℤ) = (1 / 2) * Real.sqrt (3) / Real.sqrt Real.pi := by
    refine Nlm_sq 1 0 _ (by norm_num) (by positivity) ?_
    have h1 := Real.pi_pos
    simp only [div_pow, mul_pow]
    rw [Real.sq_sqrt (show (0 : ℝ) ≤ 3 by positivity)]
    rw [Real.sq_sqrt (show (0 : ℝ) ≤ Real.pi by positivity)]
    norm_num [Nat.factorial]
    try field_simp
    try norm_num
  rw [densityInner, coneI_10 h hh _ (rectangle_compact x y), pmX_00 hE, hN]
  simp only [QlmACH.pyrCell, QlmACH.pyr10, zint_val0, zint_val1, zint_val2, zint_val3, zint_val4, zint_val5]
  have hp := sqrt_pi_ne
  have hs := sqrt_cast_ne (3) (by positivity)
  push_cast
  field_simp
  try ring

theorem pyr_11 (rho h x y : ℝ) (hh : 0 < h) (hx : 0 < x) (hy : 0 < y) :
    QlmACH.pyrCell rho h x y 1 1 = densityInner rho (coneOver h (rectangle x y)) 1 ((1 : ℕ) : ℤ) := by
  have hE := expands_rect x y hx hy
  rw [densityInner, coneI_11 h hh _ (rectangle_compact x y), pmX_10 hE]
  simp only [QlmACH.pyrCell, zint_val0, zint_val1, zint_val2, zint_val3, zint_val4, zint_val5]
  push_cast
  try ring

theorem pyr_20 (rho h x y : ℝ) (hh : 0 < h) (hx : 0 < x) (hy : 0 < y) :
    QlmACH.pyrCell rho h x y 2 0 = densityInner rho (coneOver h (rectangle x y)) 2 ((0 : ℕ) : ℤ) := by
  have hE := expands_rect x y hx hy
  have hN : Nlm 2 ((0 : ℕ) : ℤ) = (5) / (Real.sqrt (5) * Real.sqrt Real.pi) := by
    refine Nlm_sq 2 0 _ (by norm_num) (by positivity) ?_
    have h1 := Real.pi_pos
    simp only [div_pow, mul_pow]
    rw [Real.sq_sqrt (show (0 : ℝ) ≤ 5 by positivity)]
    rw [Real.sq_sqrt (show (0 : ℝ) ≤ Real.pi by positivity)]
    norm_num [Nat.factorial]
    try field_simp
    try norm_num
  rw [densityInner, coneI_20 h hh _ (rectangle_compact x y), pmX_00 hE, pmX_01 hE, hN]
  simp only [QlmACH.pyrCell, QlmACH.pyr20, zint_val0, zint_val1, zint_val2, zint_val3, zint_val4, zint_val5]
  have hp := sqrt_pi_ne
  have hs := sqrt_cast_ne (5) (by positivity)
  push_cast
  field_simp
  try ring

theorem pyr_21 (rho h x y : ℝ) (hh : 0 < h) (hx : 0 < x) (hy : 0 < y) :
    QlmACH.pyrCell rho h x y 2 1 = densityInner rho (coneOver h (rectangle x y)) 2 ((1 : ℕ) : ℤ) := by
  have hE := expands_rect x y hx hy
  rw [densityInner, coneI_21 h hh _ (rectangle_compact x y), pmX_10 hE]
  simp only [QlmACH.pyrCell, zint_val0, zint_val1, zint_val2, zint_val3, zint_val4, zint_val5]
  push_cast
  try ring

theorem pyr_22 (rho h x y : ℝ) (hh : 0 < h) (hx : 0 < x) (hy : 0 < y) :
    QlmACH.pyrCell rho h x y 2 2 = densityInner rho (coneOver h (rectangle x y)) 2 ((2 : ℕ) : ℤ) := by
  have hE := expands_rect x y hx hy
  have hN : Nlm 2 ((2 : ℕ) : ℤ) = (10) * Real.sqrt (3 / 10) / Real.sqrt Real.pi := by
    refine Nlm_sq 2 2 _ (by norm_num) (by positivity) ?_
    have h1 := Real.pi_pos
    simp only [div_pow, mul_pow]
    rw [Real.sq_sqrt (show (0 : ℝ) ≤ 3 / 10 by positivity)]
    rw [Real.sq_sqrt (show (0 : ℝ) ≤ Real.pi by positivity)]
    norm_num [Nat.factorial]
    try field_simp
    try norm_num
  rw [densityInner, coneI_22 h hh _ (rectangle_compact x y), pmX_20 hE, hN]
  simp only [QlmACH.pyrCell, QlmACH.pyr22, zint_val0, zint_val1, zint_val2, zint_val3, zint_val4, zint_val5]
  have hp := sqrt_pi_ne
  have hs := sqrt_cast_ne (3 / 10) (by positivity)
  push_cast
  field_simp
  try ring

theorem pyr_30 (rho h x y : ℝ) (hh : 0 < h) (hx : 0 < x) (hy : 0 < y) :
    QlmACH.pyrCell rho h x y 3 0 = densityInner rho (coneOver h (rectangle x y)) 3 ((0 : ℕ) : ℤ) := by
  have hE := expands_rect x y hx hy
  have hN : Nlm 3 ((0 : ℕ) : ℤ) = (3) * Real.sqrt (7) / Real.sqrt Real.pi := by
    refine Nlm_sq 3 0 _ (by norm_num) (by positivity) ?_
    have h1 := Real.pi_pos
    simp only [div_pow, mul_pow]
    rw [Real.sq_sqrt (show (0 : ℝ) ≤ 7 by positivity)]
    rw [Real.sq_sqrt (show (0 : ℝ) ≤ Real.pi by positivity)]
    norm_num [Nat.factorial]
    try field_simp
    try norm_num
  rw [densityInner, coneI_30 h hh _ (rectangle_compact x y), pmX_00 hE, pmX_01 hE, hN]
  simp only [QlmACH.pyrCell, QlmACH.pyr30, zint_val0, zint_val1, zint_val2, zint_val3, zint_val4, zint_val5]
  have hp := sqrt_pi_ne
  have hs := sqrt_cast_ne (7) (by positivity)
  push_cast
  field_simp
  try ring

theorem pyr_31 (rho h x y : ℝ) (hh : 0 < h) (hx : 0 < x) (hy : 0 < y) :
    QlmACH.pyrCell rho h x y 3 1 = densityInner rho (coneOver h (rectangle x y)) 3 ((1 : ℕ) : ℤ) := by
  have hE := expands_rect x y hx hy
  rw [densityInner, coneI_31 h hh _ (rectangle_compact x y), pmX_10 hE, pmX_11 hE]
  simp only [QlmACH.pyrCell, zint_val0, zint_val1, zint_val2, zint_val3, zint_val4, zint_val5]
  push_cast
  try ring

theorem pyr_32 (rho h x y : ℝ) (hh : 0 < h) (hx : 0 < x) (hy : 0 < y) :
    QlmACH.pyrCell rho h x y 3 2 = densityInner rho (coneOver h (rectangle x y)) 3 ((2 : ℕ) : ℤ) := by
  have hE := expands_rect x y hx hy
  have hN : Nlm 3 ((2 : ℕ) : ℤ) = (30) * Real.sqrt (7 / 30) / Real.sqrt Real.pi := by
    refine Nlm_sq 3 2 _ (by norm_num) (by positivity) ?_
    have h1 := Real.pi_pos
    simp only [div_pow, mul_pow]
    rw [Real.sq_sqrt (show (0 : ℝ) ≤ 7 / 30 by positivity)]
    rw [Real.sq_sqrt (show (0 : ℝ) ≤ Real.pi by positivity)]
    norm_num [Nat.factorial]
    try field_simp
    try norm_num
  rw [densityInner, coneI_32 h hh _ (rectangle_compact x y), pmX_20 hE, hN]
  simp only [QlmACH.pyrCell, QlmACH.pyr32, zint_val0, zint_val1, zint_val2, zint_val3, zint_val4, zint_val5]
  have hp := sqrt_pi_ne
  have hs := sqrt_cast_ne (7 / 30) (by positivity)
  push_cast
  field_simp
  try ring

theorem pyr_33 (rho h x y : ℝ) (hh : 0 < h) (hx : 0 < x) (hy : 0 < y) :
    QlmACH.pyrCell rho h x y 3 3 = densityInner rho (coneOver h (rectangle x y)) 3 ((3 : ℕ) : ℤ) := by
  have hE := expands_rect x y hx hy
  rw [densityInner, coneI_33 h hh _ (rectangle_compact x y), pmX_30 hE]
  simp only [QlmACH.pyrCell, zint_val0, zint_val1, zint_val2, zint_val3, zint_val4, zint_val5]
  push_cast
  try ring

theorem pyr_40 (rho h x y : ℝ) (hh : 0 < h) (hx : 0 < x) (hy : 0 < y) :
    QlmACH.pyrCell rho h x y 4 0 = densityInner rho (coneOver h (rectangle x y)) 4 ((0 : ℕ) : ℤ) := by
  have hE := expands_rect x y hx hy
  have hN : Nlm 4 ((0 : ℕ) : ℤ) = (36) / Real.sqrt Real.pi := by
    refine Nlm_sq 4 0 _ (by norm_num) (by positivity) ?_
    have h1 := Real.pi_pos
    simp only [div_pow, mul_pow]
    rw [Real.sq_sqrt (show (0 : ℝ) ≤ Real.pi by positivity)]
    norm_num [Nat.factorial]
    try field_simp
    try norm_num
  rw [densityInner, coneI_40 h hh _ (rectangle_compact x y), pmX_00 hE, pmX_01 hE, pmX_02 hE, hN]
  simp only [QlmACH.pyrCell, QlmACH.pyr40, zint_val0, zint_val1, zint_val2, zint_val3, zint_val4, zint_val5]
  have hp := sqrt_pi_ne
  push_cast
  field_simp
  try ring

theorem pyr_41 (rho h x y : ℝ) (hh : 0 < h) (hx : 0 < x) (hy : 0 < y) :
    QlmACH.pyrCell rho h x y 4 1 = densityInner rho (coneOver h (rectangle x y)) 4 ((1 : ℕ) : ℤ) := by
  have hE := expands_rect x y hx hy
  rw [densityInner, coneI_41 h hh _ (rectangle_compact x y), pmX_10 hE, pmX_11 hE]
  simp only [QlmACH.pyrCell, zint_val0, zint_val1, zint_val2, zint_val3, zint_val4, zint_val5]
  push_cast
  try ring

theorem pyr_42 (rho h x y : ℝ) (hh : 0 < h) (hx : 0 < x) (hy : 0 < y) :
    QlmACH.pyrCell rho h x y 4 2 = densityInner rho (coneOver h (rectangle x y)) 4 ((2 : ℕ) : ℤ) := by
  have hE := expands_rect x y hx hy
  have hN : Nlm 4 ((2 : ℕ) : ℤ) = (180) / (Real.sqrt (10) * Real.sqrt Real.pi) := by
    refine Nlm_sq 4 2 _ (by norm_num) (by positivity) ?_
    have h1 := Real.pi_pos
    simp only [div_pow, mul_pow]
    rw [Real.sq_sqrt (show (0 : ℝ) ≤ 10 by positivity)]
    rw [Real.sq_sqrt (show (0 : ℝ) ≤ Real.pi by positivity)]
    norm_num [Nat.factorial]
    try field_simp
    try norm_num
  rw [densityInner, coneI_42 h hh _ (rectangle_compact x y), pmX_20 hE, pmX_21 hE, hN]
  simp only [QlmACH.pyrCell, QlmACH.pyr42, zint_val0, zint_val1, zint_val2, zint_val3, zint_val4, zint_val5]
  have hp := sqrt_pi_ne
  have hs := sqrt_cast_ne (10) (by positivity)
  push_cast
  field_simp
  try ring

theorem pyr_43 (rho h x y : ℝ) (hh : 0 < h) (hx : 0 < x) (hy : 0 < y) :
    QlmACH.pyrCell rho h x y 4 3 = densityInner rho (coneOver h (rectangle x y)) 4 ((3 : ℕ) : ℤ) := by
  have hE := expands_rect x y hx hy
  rw [densityInner, coneI_43 h hh _ (rectangle_compact x y), pmX_30 hE]
  simp only [QlmACH.pyrCell, zint_val0, zint_val1, zint_val2, zint_val3, zint_val4, zint_val5]
  push_cast
  try ring

theorem pyr_44 (rho h x y : ℝ) (hh : 0 < h) (hx : 0 < x) (hy : 0 < y) :
    QlmACH.pyrCell rho h x y 4 4 = densityInner rho (coneOver h (rectangle x y)) 4 ((4 : ℕ) : ℤ) := by
  have hE := expands_rect x y hx hy
  have hN : Nlm 4 ((4 : ℕ) : ℤ) = (2520) / (Real.sqrt (70) * Real.sqrt Real.pi) := by
    refine Nlm_sq 4 4 _ (by norm_num) (by positivity) ?_
    have h1 := Real.pi_pos
    simp only [div_pow, mul_pow]
    rw [Real.sq_sqrt (show (0 : ℝ) ≤ 70 by positivity)]
    rw [Real.sq_sqrt (show (0 : ℝ) ≤ Real.pi by positivity)]
    norm_num [Nat.factorial]
    try field_simp
    try norm_num
  rw [densityInner, coneI_44 h hh _ (rectangle_compact x y), pmX_40 hE, hN]
  simp only [QlmACH.pyrCell, QlmACH.pyr44, zint_val0, zint_val1, zint_val2, zint_val3, zint_val4, zint_val5]
  have hp := sqrt_pi_ne
  have hs := sqrt_cast_ne (70) (by positivity)
  push_cast
  field_simp
  try ring

theorem pyr_50 (rho h x y : ℝ) (hh : 0 < h) (hx : 0 < x) (hy : 0 < y) :
    QlmACH.pyrCell rho h x y 5 0 = densityInner rho (coneOver h (rectangle x y)) 5 ((0 : ℕ) : ℤ) := by
  have hE := expands_rect x y hx hy
  have hN : Nlm 5 ((0 : ℕ) : ℤ) = (60) * Real.sqrt (11) / Real.sqrt Real.pi := by
    refine Nlm_sq 5 0 _ (by norm_num) (by positivity) ?_
    have h1 := Real.pi_pos
    simp only [div_pow, mul_pow]
    rw [Real.sq_sqrt (show (0 : ℝ) ≤ 11 by positivity)]
    rw [Real.sq_sqrt (show (0 : ℝ) ≤ Real.pi by positivity)]
    norm_num [Nat.factorial]
    try field_simp
    try norm_num
  rw [densityInner, coneI_50 h hh _ (rectangle_compact x y), pmX_00 hE, pmX_01 hE, pmX_02 hE, hN]
  simp only [QlmACH.pyrCell, QlmACH.pyr50, zint_val0, zint_val1, zint_val2, zint_val3, zint_val4, zint_val5]
  have hp := sqrt_pi_ne
  have hs := sqrt_cast_ne (11) (by positivity)
  push_cast
  field_simp
  try ring

theorem pyr_51 (rho h x y : ℝ) (hh : 0 < h) (hx : 0 < x) (hy : 0 < y) :
    QlmACH.pyrCell rho h x y 5 1 = densityInner rho (coneOver h (rectangle x y)) 5 ((1 : ℕ) : ℤ) := by
  have hE := expands_rect x y hx hy
  rw [densityInner, coneI_51 h hh _ (rectangle_compact x y), pmX_10 hE, pmX_11 hE, pmX_12 hE]
  simp only [QlmACH.pyrCell, zint_val0, zint_val1, zint_val2, zint_val3, zint_val4, zint_val5]
  push_cast
  try ring

theorem pyr_52 (rho h x y : ℝ) (hh : 0 < h) (hx : 0 < x) (hy : 0 < y) :
    QlmACH.pyrCell rho h x y 5 2 = densityInner rho (coneOver h (rectangle x y)) 5 ((2 : ℕ) : ℤ) := by
  have hE := expands_rect x y hx hy
  have hN : Nlm 5 ((2 : ℕ) : ℤ) = (420) * Real.sqrt (33 / 70) / Real.sqrt Real.pi := by
    refine Nlm_sq 5 2 _ (by norm_num) (by positivity) ?_
    have h1 := Real.pi_pos
    simp only [div_pow, mul_pow]
    rw [Real.sq_sqrt (show (0 : ℝ) ≤ 33 / 70 by positivity)]
    rw [Real.sq_sqrt (show (0 : ℝ) ≤ Real.pi by positivity)]
    norm_num [Nat.factorial]
    try field_simp
    try norm_num
  rw [densityInner, coneI_52 h hh _ (rectangle_compact x y), pmX_20 hE, pmX_21 hE, hN]
  simp only [QlmACH.pyrCell, QlmACH.pyr52, zint_val0, zint_val1, zint_val2, zint_val3, zint_val4, zint_val5]
  have hp := sqrt_pi_ne
  have hs := sqrt_cast_ne (33 / 70) (by positivity)
  push_cast
  field_simp
  try ring

theorem pyr_53 (rho h x y : ℝ) (hh : 0 < h) (hx : 0 < x) (hy : 0 < y) :
    QlmACH.pyrCell rho h x y 5 3 = densityInner rho (coneOver h (rectangle x y)) 5 ((3 : ℕ) : ℤ) := by
  have hE := expands_rect x y hx hy
  rw [densityInner, coneI_53 h hh _ (rectangle_compact x y), pmX_30 hE, pmX_31 hE]
  simp only [QlmACH.pyrCell, zint_val0, zint_val1, zint_val2, zint_val3, zint_val4, zint_val5]
  push_cast
  try ring

theorem pyr_54 (rho h x y : ℝ) (hh : 0 < h) (hx : 0 < x) (hy : 0 < y) :
    QlmACH.pyrCell rho h x y 5 4 = densityInner rho (coneOver h (rectangle x y)) 5 ((4 : ℕ) : ℤ) := by
  have hE := expands_rect x y hx hy
  have hN : Nlm 5 ((4 : ℕ) : ℤ) = (2520) * Real.sqrt (11 / 70) / Real.sqrt Real.pi := by
    refine Nlm_sq 5 4 _ (by norm_num) (by positivity) ?_
    have h1 := Real.pi_pos
    simp only [div_pow, mul_pow]
    rw [Real.sq_sqrt (show (0 : ℝ) ≤ 11 / 70 by positivity)]
    rw [Real.sq_sqrt (show (0 : ℝ) ≤ Real.pi by positivity)]
    norm_num [Nat.factorial]
    try field_simp
    try norm_num
  rw [densityInner, coneI_54 h hh _ (rectangle_compact x y), pmX_40 hE, hN]
  simp only [QlmACH.pyrCell, QlmACH.pyr54, zint_val0, zint_val1, zint_val2, zint_val3, zint_val4, zint_val5]
  have hp := sqrt_pi_ne
  have hs := sqrt_cast_ne (11 / 70) (by positivity)
  push_cast
  field_simp
  try ring

theorem pyr_55 (rho h x y : ℝ) (hh : 0 < h) (hx : 0 < x) (hy : 0 < y) :
    QlmACH.pyrCell rho h x y 5 5 = densityInner rho (coneOver h (rectangle x y)) 5 ((5 : ℕ) : ℤ) := by
  have hE := expands_rect x y hx hy
  rw [densityInner, coneI_55 h hh _ (rectangle_compact x y), pmX_50 hE]
  simp only [QlmACH.pyrCell, zint_val0, zint_val1, zint_val2, zint_val3, zint_val4, zint_val5]
  push_cast
  try ring

theorem pyr_cells (rho h x y : ℝ) (hh : 0 < h) (hx : 0 < x) (hy : 0 < y) (l m : ℕ) (hm : m ≤ l) (hl : l ≤ 5) :
    QlmACH.pyrCell rho h x y l m = densityInner rho (coneOver h (rectangle x y)) l m := by
  refine cells21 (fun l m => QlmACH.pyrCell rho h x y l m = densityInner rho (coneOver h (rectangle x y)) l ((m : ℕ) : ℤ))
    (pyr_00 rho h x y hh hx hy) (pyr_10 rho h x y hh hx hy) (pyr_11 rho h x y hh hx hy) (pyr_20 rho h x y hh hx hy) (pyr_21 rho h x y hh hx hy) (pyr_22 rho h x y hh hx hy) (pyr_30 rho h x y hh hx hy) (pyr_31 rho h x y hh hx hy) (pyr_32 rho h x y hh hx hy) (pyr_33 rho h x y hh hx hy) (pyr_40 rho h x y hh hx hy) (pyr_41 rho h x y hh hx hy) (pyr_42 rho h x y hh hx hy) (pyr_43 rho h x y hh hx hy) (pyr_44 rho h x y hh hx hy) (pyr_50 rho h x y hh hx hy) (pyr_51 rho h x y hh hx hy) (pyr_52 rho h x y hh hx hy) (pyr_53 rho h x y hh hx hy) (pyr_54 rho h x y hh hx hy) (pyr_55 rho h x y hh hx hy) l m hm hl

theorem pyr_high (rho h x y : ℝ) (l m : ℕ) (hl : 5 < l) : QlmACH.pyrCell rho h x y l m = 0 := by
  obtain ⟨k, rfl⟩ : ∃ k, l = k + 6 := ⟨l - 6, by omega⟩
  rfl

end Newt.Ach
