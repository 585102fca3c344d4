import Verif.Proofs.AchPlane

/-! # Ann cells against the volume integrals -/

namespace Newt.Ach

open MeasureTheory Finset Spec

theorem ann_00 (rho H Ri Ro phic phih : ℝ) (hH : 0 < H) (hRi : 0 ≤ Ri) (hRo : Ri ≤ Ro) (h0 : 0 ≤ phih) (hh : phih ≤ Real.pi) :
    QlmACH.annCell rho H Ri Ro phic phih 0 0 = densityInner rho (prism H (sector Ri Ro phic phih)) 0 ((0 : ℕ) : ℤ) := by
  have hN : Nlm 0 ((0 : ℕ) : ℤ) = (1) / Real.sqrt (4 * Real.pi) := by
    refine Nlm_sq 0 0 _ (by norm_num) (by positivity) ?_
    have h1 := Real.pi_pos
    simp only [div_pow, mul_pow]
    rw [Real.sq_sqrt (show (0 : ℝ) ≤ 4 * Real.pi by positivity)]
    norm_num [Nat.factorial]
    try field_simp
    try norm_num
  rw [densityInner, prismI_00 H hH _ (sector_compact _ _ _ _), pm_sec0 Ri Ro phic phih hRi hRo h0 hh  0, hN]
  simp only [QlmACH.annCell, QlmACH.ann00, Nat.cast_ofNat]
  rw [sqrt_four_pi]
  have hp := sqrt_pi_ne
  have hs := sqrt_cast_ne (4 * Real.pi) (by positivity)
  push_cast
  field_simp
  try ring

theorem ann_10 (rho H Ri Ro phic phih : ℝ) (hH : 0 < H) (hRi : 0 ≤ Ri) (hRo : Ri ≤ Ro) (h0 : 0 ≤ phih) (hh : phih ≤ Real.pi) :
    QlmACH.annCell rho H Ri Ro phic phih 1 0 = densityInner rho (prism H (sector Ri Ro phic phih)) 1 ((0 : ℕ) : ℤ) := by
  rw [densityInner, prismI_10 H hH _ (sector_compact _ _ _ _), mul_zero]
  rfl

theorem ann_11 (rho H Ri Ro phic phih : ℝ) (hH : 0 < H) (hRi : 0 ≤ Ri) (hRo : Ri ≤ Ro) (h0 : 0 ≤ phih) (hh : phih ≤ Real.pi) :
    QlmACH.annCell rho H Ri Ro phic phih 1 1 = densityInner rho (prism H (sector Ri Ro phic phih)) 1 ((1 : ℕ) : ℤ) := by
  have hN : Nlm 1 ((1 : ℕ) : ℤ) = (3) / Real.sqrt (6 * Real.pi) := by
    refine Nlm_sq 1 1 _ (by norm_num) (by positivity) ?_
    have h1 := Real.pi_pos
    simp only [div_pow, mul_pow]
    rw [Real.sq_sqrt (show (0 : ℝ) ≤ 6 * Real.pi by positivity)]
    norm_num [Nat.factorial]
    try field_simp
    try norm_num
  rw [densityInner, prismI_11 H hH _ (sector_compact _ _ _ _), pm_sec Ri Ro phic phih hRi hRo h0 hh 1 0 (by norm_num), hN]
  simp only [QlmACH.annCell, QlmACH.ann11, Nat.cast_ofNat]
  rw [show phih * 2 / 2 = 1 * phih by ring]
  have hp := sqrt_pi_ne
  have hs := sqrt_cast_ne (6 * Real.pi) (by positivity)
  push_cast
  field_simp
  try ring

theorem ann_20 (rho H Ri Ro phic phih : ℝ) (hH : 0 < H) (hRi : 0 ≤ Ri) (hRo : Ri ≤ Ro) (h0 : 0 ≤ phih) (hh : phih ≤ Real.pi) :
    QlmACH.annCell rho H Ri Ro phic phih 2 0 = densityInner rho (prism H (sector Ri Ro phic phih)) 2 ((0 : ℕ) : ℤ) := by
  have hN : Nlm 2 ((0 : ℕ) : ℤ) = (1) * Real.sqrt (5 / Real.pi) := by
    refine Nlm_sq 2 0 _ (by norm_num) (by positivity) ?_
    have h1 := Real.pi_pos
    simp only [div_pow, mul_pow]
    rw [Real.sq_sqrt (show (0 : ℝ) ≤ 5 / Real.pi by positivity)]
    norm_num [Nat.factorial]
    try field_simp
    try norm_num
  rw [densityInner, prismI_20 H hH _ (sector_compact _ _ _ _), pm_sec0 Ri Ro phic phih hRi hRo h0 hh  0, pm_sec0 Ri Ro phic phih hRi hRo h0 hh  1, hN]
  simp only [QlmACH.annCell, QlmACH.ann20, Nat.cast_ofNat]
  have hp := sqrt_pi_ne
  have hs := sqrt_cast_ne (5 / Real.pi) (by positivity)
  push_cast
  field_simp
  try ring

theorem ann_21 (rho H Ri Ro phic phih : ℝ) (hH : 0 < H) (hRi : 0 ≤ Ri) (hRo : Ri ≤ Ro) (h0 : 0 ≤ phih) (hh : phih ≤ Real.pi) :
    QlmACH.annCell rho H Ri Ro phic phih 2 1 = densityInner rho (prism H (sector Ri Ro phic phih)) 2 ((1 : ℕ) : ℤ) := by
  rw [densityInner, prismI_21 H hH _ (sector_compact _ _ _ _), mul_zero]
  rfl

theorem ann_22 (rho H Ri Ro phic phih : ℝ) (hH : 0 < H) (hRi : 0 ≤ Ri) (hRo : Ri ≤ Ro) (h0 : 0 ≤ phih) (hh : phih ≤ Real.pi) :
    QlmACH.annCell rho H Ri Ro phic phih 2 2 = densityInner rho (prism H (sector Ri Ro phic phih)) 2 ((2 : ℕ) : ℤ) := by
  have hN : Nlm 2 ((2 : ℕ) : ℤ) = (2) * Real.sqrt (15 / (2 * Real.pi)) := by
    refine Nlm_sq 2 2 _ (by norm_num) (by positivity) ?_
    have h1 := Real.pi_pos
    simp only [div_pow, mul_pow]
    rw [Real.sq_sqrt (show (0 : ℝ) ≤ 15 / (2 * Real.pi) by positivity)]
    norm_num [Nat.factorial]
    try field_simp
    try norm_num
  rw [densityInner, prismI_22 H hH _ (sector_compact _ _ _ _), pm_sec Ri Ro phic phih hRi hRo h0 hh 2 0 (by norm_num), hN]
  simp only [QlmACH.annCell, QlmACH.ann22, Nat.cast_ofNat]
  rw [show phih * 2 = 2 * phih by ring]
  have hp := sqrt_pi_ne
  have hs := sqrt_cast_ne (15 / (2 * Real.pi)) (by positivity)
  push_cast
  field_simp
  try ring

theorem ann_30 (rho H Ri Ro phic phih : ℝ) (hH : 0 < H) (hRi : 0 ≤ Ri) (hRo : Ri ≤ Ro) (h0 : 0 ≤ phih) (hh : phih ≤ Real.pi) :
    QlmACH.annCell rho H Ri Ro phic phih 3 0 = densityInner rho (prism H (sector Ri Ro phic phih)) 3 ((0 : ℕ) : ℤ) := by
  rw [densityInner, prismI_30 H hH _ (sector_compact _ _ _ _), mul_zero]
  rfl

theorem ann_31 (rho H Ri Ro phic phih : ℝ) (hH : 0 < H) (hRi : 0 ≤ Ri) (hRo : Ri ≤ Ro) (h0 : 0 ≤ phih) (hh : phih ≤ Real.pi) :
    QlmACH.annCell rho H Ri Ro phic phih 3 1 = densityInner rho (prism H (sector Ri Ro phic phih)) 3 ((1 : ℕ) : ℤ) := by
  have hN : Nlm 3 ((1 : ℕ) : ℤ) = (6) * Real.sqrt (7 / (3 * Real.pi)) := by
    refine Nlm_sq 3 1 _ (by norm_num) (by positivity) ?_
    have h1 := Real.pi_pos
    simp only [div_pow, mul_pow]
    rw [Real.sq_sqrt (show (0 : ℝ) ≤ 7 / (3 * Real.pi) by positivity)]
    norm_num [Nat.factorial]
    try field_simp
    try norm_num
  rw [densityInner, prismI_31 H hH _ (sector_compact _ _ _ _), pm_sec Ri Ro phic phih hRi hRo h0 hh 1 0 (by norm_num), pm_sec Ri Ro phic phih hRi hRo h0 hh 1 1 (by norm_num), hN]
  simp only [QlmACH.annCell, QlmACH.ann31, Nat.cast_ofNat]
  rw [show phih * 2 / 2 = 1 * phih by ring]
  have hp := sqrt_pi_ne
  have hs := sqrt_cast_ne (7 / (3 * Real.pi)) (by positivity)
  push_cast
  field_simp
  try ring

theorem ann_32 (rho H Ri Ro phic phih : ℝ) (hH : 0 < H) (hRi : 0 ≤ Ri) (hRo : Ri ≤ Ro) (h0 : 0 ≤ phih) (hh : phih ≤ Real.pi) :
    QlmACH.annCell rho H Ri Ro phic phih 3 2 = densityInner rho (prism H (sector Ri Ro phic phih)) 3 ((2 : ℕ) : ℤ) := by
  rw [densityInner, prismI_32 H hH _ (sector_compact _ _ _ _), mul_zero]
  rfl

theorem ann_33 (rho H Ri Ro phic phih : ℝ) (hH : 0 < H) (hRi : 0 ≤ Ri) (hRo : Ri ≤ Ro) (h0 : 0 ≤ phih) (hh : phih ≤ Real.pi) :
    QlmACH.annCell rho H Ri Ro phic phih 3 3 = densityInner rho (prism H (sector Ri Ro phic phih)) 3 ((3 : ℕ) : ℤ) := by
  have hN : Nlm 3 ((3 : ℕ) : ℤ) = (30) * Real.sqrt (7 / (5 * Real.pi)) := by
    refine Nlm_sq 3 3 _ (by norm_num) (by positivity) ?_
    have h1 := Real.pi_pos
    simp only [div_pow, mul_pow]
    rw [Real.sq_sqrt (show (0 : ℝ) ≤ 7 / (5 * Real.pi) by positivity)]
    norm_num [Nat.factorial]
    try field_simp
    try norm_num
  rw [densityInner, prismI_33 H hH _ (sector_compact _ _ _ _), pm_sec Ri Ro phic phih hRi hRo h0 hh 3 0 (by norm_num), hN]
  simp only [QlmACH.annCell, QlmACH.ann33, Nat.cast_ofNat]
  rw [show phih * 2 * 3 / 2 = 3 * phih by ring]
  have hp := sqrt_pi_ne
  have hs := sqrt_cast_ne (7 / (5 * Real.pi)) (by positivity)
  push_cast
  field_simp
  try ring

theorem ann_40 (rho H Ri Ro phic phih : ℝ) (hH : 0 < H) (hRi : 0 ≤ Ri) (hRo : Ri ≤ Ro) (h0 : 0 ≤ phih) (hh : phih ≤ Real.pi) :
    QlmACH.annCell rho H Ri Ro phic phih 4 0 = densityInner rho (prism H (sector Ri Ro phic phih)) 4 ((0 : ℕ) : ℤ) := by
  have hN : Nlm 4 ((0 : ℕ) : ℤ) = (36) / Real.sqrt (Real.pi) := by
    refine Nlm_sq 4 0 _ (by norm_num) (by positivity) ?_
    have h1 := Real.pi_pos
    simp only [div_pow, mul_pow]
    rw [Real.sq_sqrt (show (0 : ℝ) ≤ Real.pi by positivity)]
    norm_num [Nat.factorial]
    try field_simp
    try norm_num
  rw [densityInner, prismI_40 H hH _ (sector_compact _ _ _ _), pm_sec0 Ri Ro phic phih hRi hRo h0 hh  0, pm_sec0 Ri Ro phic phih hRi hRo h0 hh  1, pm_sec0 Ri Ro phic phih hRi hRo h0 hh  2, hN]
  simp only [QlmACH.annCell, QlmACH.ann40, Nat.cast_ofNat]
  have hp := sqrt_pi_ne
  push_cast
  field_simp
  try ring

theorem ann_41 (rho H Ri Ro phic phih : ℝ) (hH : 0 < H) (hRi : 0 ≤ Ri) (hRo : Ri ≤ Ro) (h0 : 0 ≤ phih) (hh : phih ≤ Real.pi) :
    QlmACH.annCell rho H Ri Ro phic phih 4 1 = densityInner rho (prism H (sector Ri Ro phic phih)) 4 ((1 : ℕ) : ℤ) := by
  rw [densityInner, prismI_41 H hH _ (sector_compact _ _ _ _), mul_zero]
  rfl

theorem ann_42 (rho H Ri Ro phic phih : ℝ) (hH : 0 < H) (hRi : 0 ≤ Ri) (hRo : Ri ≤ Ro) (h0 : 0 ≤ phih) (hh : phih ≤ Real.pi) :
    QlmACH.annCell rho H Ri Ro phic phih 4 2 = densityInner rho (prism H (sector Ri Ro phic phih)) 4 ((2 : ℕ) : ℤ) := by
  have hN : Nlm 4 ((2 : ℕ) : ℤ) = (36) * Real.sqrt (5 / (2 * Real.pi)) := by
    refine Nlm_sq 4 2 _ (by norm_num) (by positivity) ?_
    have h1 := Real.pi_pos
    simp only [div_pow, mul_pow]
    rw [Real.sq_sqrt (show (0 : ℝ) ≤ 5 / (2 * Real.pi) by positivity)]
    norm_num [Nat.factorial]
    try field_simp
    try norm_num
  rw [densityInner, prismI_42 H hH _ (sector_compact _ _ _ _), pm_sec Ri Ro phic phih hRi hRo h0 hh 2 0 (by norm_num), pm_sec Ri Ro phic phih hRi hRo h0 hh 2 1 (by norm_num), hN]
  simp only [QlmACH.annCell, QlmACH.ann42, Nat.cast_ofNat]
  rw [show phih * 2 = 2 * phih by ring]
  have hp := sqrt_pi_ne
  have hs := sqrt_cast_ne (5 / (2 * Real.pi)) (by positivity)
  push_cast
  field_simp
  try ring

theorem ann_43 (rho H Ri Ro phic phih : ℝ) (hH : 0 < H) (hRi : 0 ≤ Ri) (hRo : Ri ≤ Ro) (h0 : 0 ≤ phih) (hh : phih ≤ Real.pi) :
    QlmACH.annCell rho H Ri Ro phic phih 4 3 = densityInner rho (prism H (sector Ri Ro phic phih)) 4 ((3 : ℕ) : ℤ) := by
  rw [densityInner, prismI_43 H hH _ (sector_compact _ _ _ _), mul_zero]
  rfl

theorem ann_44 (rho H Ri Ro phic phih : ℝ) (hH : 0 < H) (hRi : 0 ≤ Ri) (hRo : Ri ≤ Ro) (h0 : 0 ≤ phih) (hh : phih ≤ Real.pi) :
    QlmACH.annCell rho H Ri Ro phic phih 4 4 = densityInner rho (prism H (sector Ri Ro phic phih)) 4 ((4 : ℕ) : ℤ) := by
  have hN : Nlm 4 ((4 : ℕ) : ℤ) = (72) * Real.sqrt (35 / (2 * Real.pi)) := by
    refine Nlm_sq 4 4 _ (by norm_num) (by positivity) ?_
    have h1 := Real.pi_pos
    simp only [div_pow, mul_pow]
    rw [Real.sq_sqrt (show (0 : ℝ) ≤ 35 / (2 * Real.pi) by positivity)]
    norm_num [Nat.factorial]
    try field_simp
    try norm_num
  rw [densityInner, prismI_44 H hH _ (sector_compact _ _ _ _), pm_sec Ri Ro phic phih hRi hRo h0 hh 4 0 (by norm_num), hN]
  simp only [QlmACH.annCell, QlmACH.ann44, Nat.cast_ofNat]
  rw [show 2 * (phih * 2) = 4 * phih by ring]
  have hp := sqrt_pi_ne
  have hs := sqrt_cast_ne (35 / (2 * Real.pi)) (by positivity)
  push_cast
  field_simp
  try ring

theorem ann_50 (rho H Ri Ro phic phih : ℝ) (hH : 0 < H) (hRi : 0 ≤ Ri) (hRo : Ri ≤ Ro) (h0 : 0 ≤ phih) (hh : phih ≤ Real.pi) :
    QlmACH.annCell rho H Ri Ro phic phih 5 0 = densityInner rho (prism H (sector Ri Ro phic phih)) 5 ((0 : ℕ) : ℤ) := by
  rw [densityInner, prismI_50 H hH _ (sector_compact _ _ _ _), mul_zero]
  rfl

theorem ann_51 (rho H Ri Ro phic phih : ℝ) (hH : 0 < H) (hRi : 0 ≤ Ri) (hRo : Ri ≤ Ro) (h0 : 0 ≤ phih) (hh : phih ≤ Real.pi) :
    QlmACH.annCell rho H Ri Ro phic phih 5 1 = densityInner rho (prism H (sector Ri Ro phic phih)) 5 ((1 : ℕ) : ℤ) := by
  have hN : Nlm 5 ((1 : ℕ) : ℤ) = (360) * Real.sqrt (11 / (30 * Real.pi)) := by
    refine Nlm_sq 5 1 _ (by norm_num) (by positivity) ?_
    have h1 := Real.pi_pos
    simp only [div_pow, mul_pow]
    rw [Real.sq_sqrt (show (0 : ℝ) ≤ 11 / (30 * Real.pi) by positivity)]
    norm_num [Nat.factorial]
    try field_simp
    try norm_num
  rw [densityInner, prismI_51 H hH _ (sector_compact _ _ _ _), pm_sec Ri Ro phic phih hRi hRo h0 hh 1 0 (by norm_num), pm_sec Ri Ro phic phih hRi hRo h0 hh 1 1 (by norm_num), pm_sec Ri Ro phic phih hRi hRo h0 hh 1 2 (by norm_num), hN]
  simp only [QlmACH.annCell, QlmACH.ann51, Nat.cast_ofNat]
  rw [show phih * 2 / 2 = 1 * phih by ring]
  have hp := sqrt_pi_ne
  have hs := sqrt_cast_ne (11 / (30 * Real.pi)) (by positivity)
  push_cast
  field_simp
  try ring

theorem ann_52 (rho H Ri Ro phic phih : ℝ) (hH : 0 < H) (hRi : 0 ≤ Ri) (hRo : Ri ≤ Ro) (h0 : 0 ≤ phih) (hh : phih ≤ Real.pi) :
    QlmACH.annCell rho H Ri Ro phic phih 5 2 = densityInner rho (prism H (sector Ri Ro phic phih)) 5 ((2 : ℕ) : ℤ) := by
  rw [densityInner, prismI_52 H hH _ (sector_compact _ _ _ _), mul_zero]
  rfl

theorem ann_53 (rho H Ri Ro phic phih : ℝ) (hH : 0 < H) (hRi : 0 ≤ Ri) (hRo : Ri ≤ Ro) (h0 : 0 ≤ phih) (hh : phih ≤ Real.pi) :
    QlmACH.annCell rho H Ri Ro phic phih 5 3 = densityInner rho (prism H (sector Ri Ro phic phih)) 5 ((3 : ℕ) : ℤ) := by
  have hN : Nlm 5 ((3 : ℕ) : ℤ) = (840) * Real.sqrt (11 / (35 * Real.pi)) := by
    refine Nlm_sq 5 3 _ (by norm_num) (by positivity) ?_
    have h1 := Real.pi_pos
    simp only [div_pow, mul_pow]
    rw [Real.sq_sqrt (show (0 : ℝ) ≤ 11 / (35 * Real.pi) by positivity)]
    norm_num [Nat.factorial]
    try field_simp
    try norm_num
  rw [densityInner, prismI_53 H hH _ (sector_compact _ _ _ _), pm_sec Ri Ro phic phih hRi hRo h0 hh 3 0 (by norm_num), pm_sec Ri Ro phic phih hRi hRo h0 hh 3 1 (by norm_num), hN]
  simp only [QlmACH.annCell, QlmACH.ann53, Nat.cast_ofNat]
  rw [show phih * 2 * 3 / 2 = 3 * phih by ring]
  have hp := sqrt_pi_ne
  have hs := sqrt_cast_ne (11 / (35 * Real.pi)) (by positivity)
  push_cast
  field_simp
  try ring

theorem ann_54 (rho H Ri Ro phic phih : ℝ) (hH : 0 < H) (hRi : 0 ≤ Ri) (hRo : Ri ≤ Ro) (h0 : 0 ≤ phih) (hh : phih ≤ Real.pi) :
    QlmACH.annCell rho H Ri Ro phic phih 5 4 = densityInner rho (prism H (sector Ri Ro phic phih)) 5 ((4 : ℕ) : ℤ) := by
  rw [densityInner, prismI_54 H hH _ (sector_compact _ _ _ _), mul_zero]
  rfl

theorem ann_55 (rho H Ri Ro phic phih : ℝ) (hH : 0 < H) (hRi : 0 ≤ Ri) (hRo : Ri ≤ Ro) (h0 : 0 ≤ phih) (hh : phih ≤ Real.pi) :
    QlmACH.annCell rho H Ri Ro phic phih 5 5 = densityInner rho (prism H (sector Ri Ro phic phih)) 5 ((5 : ℕ) : ℤ) := by
  have hN : Nlm 5 ((5 : ℕ) : ℤ) = (2520) * Real.sqrt (11 / (7 * Real.pi)) := by
    refine Nlm_sq 5 5 _ (by norm_num) (by positivity) ?_
    have h1 := Real.pi_pos
    simp only [div_pow, mul_pow]
    rw [Real.sq_sqrt (show (0 : ℝ) ≤ 11 / (7 * Real.pi) by positivity)]
    norm_num [Nat.factorial]
    try field_simp
    try norm_num
  rw [densityInner, prismI_55 H hH _ (sector_compact _ _ _ _), pm_sec Ri Ro phic phih hRi hRo h0 hh 5 0 (by norm_num), hN]
  simp only [QlmACH.annCell, QlmACH.ann55, Nat.cast_ofNat]
  rw [show phih * 2 * 5 / 2 = 5 * phih by ring]
  have hp := sqrt_pi_ne
  have hs := sqrt_cast_ne (11 / (7 * Real.pi)) (by positivity)
  push_cast
  field_simp
  try ring

theorem ann_cells (rho H Ri Ro phic phih : ℝ) (hH : 0 < H) (hRi : 0 ≤ Ri) (hRo : Ri ≤ Ro) (h0 : 0 ≤ phih) (hh : phih ≤ Real.pi) (l m : ℕ) (hm : m ≤ l) (hl : l ≤ 5) :
    QlmACH.annCell rho H Ri Ro phic phih l m = densityInner rho (prism H (sector Ri Ro phic phih)) l m := by
  refine cells21 (fun l m => QlmACH.annCell rho H Ri Ro phic phih l m = densityInner rho (prism H (sector Ri Ro phic phih)) l ((m : ℕ) : ℤ))
    (ann_00 rho H Ri Ro phic phih hH hRi hRo h0 hh) (ann_10 rho H Ri Ro phic phih hH hRi hRo h0 hh) (ann_11 rho H Ri Ro phic phih hH hRi hRo h0 hh) (ann_20 rho H Ri Ro phic phih hH hRi hRo h0 hh) (ann_21 rho H Ri Ro phic phih hH hRi hRo h0 hh) (ann_22 rho H Ri Ro phic phih hH hRi hRo h0 hh) (ann_30 rho H Ri Ro phic phih hH hRi hRo h0 hh) (ann_31 rho H Ri Ro phic phih hH hRi hRo h0 hh) (ann_32 rho H Ri Ro phic phih hH hRi hRo h0 hh) (ann_33 rho H Ri Ro phic phih hH hRi hRo h0 hh) (ann_40 rho H Ri Ro phic phih hH hRi hRo h0 hh) (ann_41 rho H Ri Ro phic phih hH hRi hRo h0 hh) (ann_42 rho H Ri Ro phic phih hH hRi hRo h0 hh) (ann_43 rho H Ri Ro phic phih hH hRi hRo h0 hh) (ann_44 rho H Ri Ro phic phih hH hRi hRo h0 hh) (ann_50 rho H Ri Ro phic phih hH hRi hRo h0 hh) (ann_51 rho H Ri Ro phic phih hH hRi hRo h0 hh) (ann_52 rho H Ri Ro phic phih hH hRi hRo h0 hh) (ann_53 rho H Ri Ro phic phih hH hRi hRo h0 hh) (ann_54 rho H Ri Ro phic phih hH hRi hRo h0 hh) (ann_55 rho H Ri Ro phic phih hH hRi hRo h0 hh) l m hm hl

theorem ann_high (rho H Ri Ro phic phih : ℝ) (l m : ℕ) (hl : 5 < l) : QlmACH.annCell rho H Ri Ro phic phih l m = 0 := by
  obtain ⟨k, rfl⟩ : ∃ k, l = k + 6 := ⟨l - 6, by omega⟩
  rfl

end Newt.Ach
