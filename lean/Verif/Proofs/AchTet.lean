import Verif.Proofs.AchPlane

/-! # Tet cells against the volume integrals -/

namespace Newt.Ach

open MeasureTheory Finset Spec

theorem tet_00 (rho x y z : ℝ) (hx : 0 < x) (hy : 0 < y) (hz : 0 < z) :
    QlmACH.tetCell rho x y z 0 0 = densityInner rho (coneOver z (triangle (x, 0) (0, y))) 0 ((0 : ℕ) : ℤ) := by
  have hE := expands_right x y hx hy
  have hN : Nlm 0 ((0 : ℕ) : ℤ) = (1 / 2) / Real.sqrt Real.pi := by
    refine Nlm_sq 0 0 _ (by norm_num) (by positivity) ?_
    have h1 := Real.pi_pos
    simp only [div_pow, mul_pow]
    rw [Real.sq_sqrt (show (0 : ℝ) ≤ Real.pi by positivity)]
    norm_num [Nat.factorial]
    try field_simp
    try norm_num
  rw [densityInner, coneI_00 z hz _ (triangle_compact _ _), pmX_00 hE, hN]
  simp only [QlmACH.tetCell, QlmACH.tet00, Nat.factorial]
  rw [sqrt_four_pi]
  have hp := sqrt_pi_ne
  push_cast
  field_simp
  norm_num
  first | done | ring1 | (ring_nf; simp only [Complex.I_sq, Complex.I_pow_three, Complex.I_pow_four]; ring)

theorem tet_10 (rho x y z : ℝ) (hx : 0 < x) (hy : 0 < y) (hz : 0 < z) :
    QlmACH.tetCell rho x y z 1 0 = densityInner rho (coneOver z (triangle (x, 0) (0, y))) 1 ((0 : ℕ) : ℤ) := by
  have hE := expands_right x y hx hy
  have hN : Nlm 1 ((0 : ℕ) : ℤ) = (1 / 2) * Real.sqrt (3) / Real.sqrt Real.pi := by
    refine Nlm_sq 1 0 _ (by norm_num) (by positivity) ?_
    have h1 := Real.pi_pos
    simp only [div_pow, mul_pow]
    rw [Real.sq_sqrt (show (0 : ℝ) ≤ 3 by positivity)]
    rw [Real.sq_sqrt (show (0 : ℝ) ≤ Real.pi by positivity)]
    norm_num [Nat.factorial]
    try field_simp
    try norm_num
  rw [densityInner, coneI_10 z hz _ (triangle_compact _ _), pmX_00 hE, hN]
  simp only [QlmACH.tetCell, QlmACH.tet10, Nat.factorial]
  rw [sqrt_four_pi]
  have hp := sqrt_pi_ne
  have hs := sqrt_cast_ne (3) (by positivity)
  push_cast
  field_simp
  norm_num
  first | done | ring1 | (ring_nf; simp only [Complex.I_sq, Complex.I_pow_three, Complex.I_pow_four]; ring)

theorem tet_11 (rho x y z : ℝ) (hx : 0 < x) (hy : 0 < y) (hz : 0 < z) :
    QlmACH.tetCell rho x y z 1 1 = densityInner rho (coneOver z (triangle (x, 0) (0, y))) 1 ((1 : ℕ) : ℤ) := by
  have hE := expands_right x y hx hy
  have hN : Nlm 1 ((1 : ℕ) : ℤ) = (3) / (Real.sqrt (6) * Real.sqrt Real.pi) := by
    refine Nlm_sq 1 1 _ (by norm_num) (by positivity) ?_
    have h1 := Real.pi_pos
    simp only [div_pow, mul_pow]
    rw [Real.sq_sqrt (show (0 : ℝ) ≤ 6 by positivity)]
    rw [Real.sq_sqrt (show (0 : ℝ) ≤ Real.pi by positivity)]
    norm_num [Nat.factorial]
    try field_simp
    try norm_num
  rw [densityInner, coneI_11 z hz _ (triangle_compact _ _), pmX_10 hE, hN]
  simp only [QlmACH.tetCell, QlmACH.tet11, Nat.factorial]
  rw [sqrt_four_pi]
  have hp := sqrt_pi_ne
  have hs := sqrt_cast_ne (6) (by positivity)
  push_cast
  field_simp
  norm_num
  first | done | ring1 | (ring_nf; simp only [Complex.I_sq, Complex.I_pow_three, Complex.I_pow_four]; ring)

theorem tet_20 (rho x y z : ℝ) (hx : 0 < x) (hy : 0 < y) (hz : 0 < z) :
    QlmACH.tetCell rho x y z 2 0 = densityInner rho (coneOver z (triangle (x, 0) (0, y))) 2 ((0 : ℕ) : ℤ) := by
  have hE := expands_right x y hx hy
  have hN : Nlm 2 ((0 : ℕ) : ℤ) = (5) / (Real.sqrt (5) * Real.sqrt Real.pi) := by
    refine Nlm_sq 2 0 _ (by norm_num) (by positivity) ?_
    have h1 := Real.pi_pos
    simp only [div_pow, mul_pow]
    rw [Real.sq_sqrt (show (0 : ℝ) ≤ 5 by positivity)]
    rw [Real.sq_sqrt (show (0 : ℝ) ≤ Real.pi by positivity)]
    norm_num [Nat.factorial]
    try field_simp
    try norm_num
  rw [densityInner, coneI_20 z hz _ (triangle_compact _ _), pmX_00 hE, pmX_01 hE, hN]
  simp only [QlmACH.tetCell, QlmACH.tet20, Nat.factorial]
  rw [sqrt_four_pi]
  have hp := sqrt_pi_ne
  have hs := sqrt_cast_ne (5) (by positivity)
  push_cast
  field_simp
  norm_num
  first | done | ring1 | (ring_nf; simp only [Complex.I_sq, Complex.I_pow_three, Complex.I_pow_four]; ring)

theorem tet_21 (rho x y z : ℝ) (hx : 0 < x) (hy : 0 < y) (hz : 0 < z) :
    QlmACH.tetCell rho x y z 2 1 = densityInner rho (coneOver z (triangle (x, 0) (0, y))) 2 ((1 : ℕ) : ℤ) := by
  have hE := expands_right x y hx hy
  have hN : Nlm 2 ((1 : ℕ) : ℤ) = (15) / (Real.sqrt (30) * Real.sqrt Real.pi) := by
    refine Nlm_sq 2 1 _ (by norm_num) (by positivity) ?_
    have h1 := Real.pi_pos
    simp only [div_pow, mul_pow]
    rw [Real.sq_sqrt (show (0 : ℝ) ≤ 30 by positivity)]
    rw [Real.sq_sqrt (show (0 : ℝ) ≤ Real.pi by positivity)]
    norm_num [Nat.factorial]
    try field_simp
    try norm_num
  rw [densityInner, coneI_21 z hz _ (triangle_compact _ _), pmX_10 hE, hN]
  simp only [QlmACH.tetCell, QlmACH.tet21, Nat.factorial]
  rw [sqrt_four_pi]
  have hp := sqrt_pi_ne
  have hs := sqrt_cast_ne (30) (by positivity)
  push_cast
  field_simp
  norm_num
  first | done | ring1 | (ring_nf; simp only [Complex.I_sq, Complex.I_pow_three, Complex.I_pow_four]; ring)

theorem tet_22 (rho x y z : ℝ) (hx : 0 < x) (hy : 0 < y) (hz : 0 < z) :
    QlmACH.tetCell rho x y z 2 2 = densityInner rho (coneOver z (triangle (x, 0) (0, y))) 2 ((2 : ℕ) : ℤ) := by
  have hE := expands_right x y hx hy
  have hN : Nlm 2 ((2 : ℕ) : ℤ) = (30) / (Real.sqrt (30) * Real.sqrt Real.pi) := by
    refine Nlm_sq 2 2 _ (by norm_num) (by positivity) ?_
    have h1 := Real.pi_pos
    simp only [div_pow, mul_pow]
    rw [Real.sq_sqrt (show (0 : ℝ) ≤ 30 by positivity)]
    rw [Real.sq_sqrt (show (0 : ℝ) ≤ Real.pi by positivity)]
    norm_num [Nat.factorial]
    try field_simp
    try norm_num
  rw [densityInner, coneI_22 z hz _ (triangle_compact _ _), pmX_20 hE, hN]
  simp only [QlmACH.tetCell, QlmACH.tet22, Nat.factorial]
  rw [sqrt_four_pi]
  have hp := sqrt_pi_ne
  have hs := sqrt_cast_ne (30) (by positivity)
  push_cast
  field_simp
  norm_num
  first | done | ring1 | (ring_nf; simp only [Complex.I_sq, Complex.I_pow_three, Complex.I_pow_four]; ring)

theorem tet_30 (rho x y z : ℝ) (hx : 0 < x) (hy : 0 < y) (hz : 0 < z) :
    QlmACH.tetCell rho x y z 3 0 = densityInner rho (coneOver z (triangle (x, 0) (0, y))) 3 ((0 : ℕ) : ℤ) := by
  have hE := expands_right x y hx hy
  have hN : Nlm 3 ((0 : ℕ) : ℤ) = (3) * Real.sqrt (7) / Real.sqrt Real.pi := by
    refine Nlm_sq 3 0 _ (by norm_num) (by positivity) ?_
    have h1 := Real.pi_pos
    simp only [div_pow, mul_pow]
    rw [Real.sq_sqrt (show (0 : ℝ) ≤ 7 by positivity)]
    rw [Real.sq_sqrt (show (0 : ℝ) ≤ Real.pi by positivity)]
    norm_num [Nat.factorial]
    try field_simp
    try norm_num
  rw [densityInner, coneI_30 z hz _ (triangle_compact _ _), pmX_00 hE, pmX_01 hE, hN]
  simp only [QlmACH.tetCell, QlmACH.tet30, Nat.factorial]
  rw [sqrt_four_pi]
  have hp := sqrt_pi_ne
  have hs := sqrt_cast_ne (7) (by positivity)
  push_cast
  field_simp
  norm_num
  first | done | ring1 | (ring_nf; simp only [Complex.I_sq, Complex.I_pow_three, Complex.I_pow_four]; ring)

theorem tet_31 (rho x y z : ℝ) (hx : 0 < x) (hy : 0 < y) (hz : 0 < z) :
    QlmACH.tetCell rho x y z 3 1 = densityInner rho (coneOver z (triangle (x, 0) (0, y))) 3 ((1 : ℕ) : ℤ) := by
  have hE := expands_right x y hx hy
  have hN : Nlm 3 ((1 : ℕ) : ℤ) = (6) * Real.sqrt (7 / 3) / Real.sqrt Real.pi := by
    refine Nlm_sq 3 1 _ (by norm_num) (by positivity) ?_
    have h1 := Real.pi_pos
    simp only [div_pow, mul_pow]
    rw [Real.sq_sqrt (show (0 : ℝ) ≤ 7 / 3 by positivity)]
    rw [Real.sq_sqrt (show (0 : ℝ) ≤ Real.pi by positivity)]
    norm_num [Nat.factorial]
    try field_simp
    try norm_num
  rw [densityInner, coneI_31 z hz _ (triangle_compact _ _), pmX_10 hE, pmX_11 hE, hN]
  simp only [QlmACH.tetCell, QlmACH.tet31, Nat.factorial]
  rw [sqrt_four_pi]
  have hp := sqrt_pi_ne
  have hs := sqrt_cast_ne (7 / 3) (by positivity)
  push_cast
  field_simp
  norm_num
  first | done | ring1 | (ring_nf; simp only [Complex.I_sq, Complex.I_pow_three, Complex.I_pow_four]; ring)

theorem tet_32 (rho x y z : ℝ) (hx : 0 < x) (hy : 0 < y) (hz : 0 < z) :
    QlmACH.tetCell rho x y z 3 2 = densityInner rho (coneOver z (triangle (x, 0) (0, y))) 3 ((2 : ℕ) : ℤ) := by
  have hE := expands_right x y hx hy
  have hN : Nlm 3 ((2 : ℕ) : ℤ) = (30) * Real.sqrt (7 / 30) / Real.sqrt Real.pi := by
    refine Nlm_sq 3 2 _ (by norm_num) (by positivity) ?_
    have h1 := Real.pi_pos
    simp only [div_pow, mul_pow]
    rw [Real.sq_sqrt (show (0 : ℝ) ≤ 7 / 30 by positivity)]
    rw [Real.sq_sqrt (show (0 : ℝ) ≤ Real.pi by positivity)]
    norm_num [Nat.factorial]
    try field_simp
    try norm_num
  rw [densityInner, coneI_32 z hz _ (triangle_compact _ _), pmX_20 hE, hN]
  simp only [QlmACH.tetCell, QlmACH.tet32, Nat.factorial]
  rw [sqrt_four_pi]
  have hp := sqrt_pi_ne
  have hs := sqrt_cast_ne (7 / 30) (by positivity)
  push_cast
  field_simp
  norm_num
  first | done | ring1 | (ring_nf; simp only [Complex.I_sq, Complex.I_pow_three, Complex.I_pow_four]; ring)

theorem tet_33 (rho x y z : ℝ) (hx : 0 < x) (hy : 0 < y) (hz : 0 < z) :
    QlmACH.tetCell rho x y z 3 3 = densityInner rho (coneOver z (triangle (x, 0) (0, y))) 3 ((3 : ℕ) : ℤ) := by
  have hE := expands_right x y hx hy
  have hN : Nlm 3 ((3 : ℕ) : ℤ) = (30) * Real.sqrt (7 / 5) / Real.sqrt Real.pi := by
    refine Nlm_sq 3 3 _ (by norm_num) (by positivity) ?_
    have h1 := Real.pi_pos
    simp only [div_pow, mul_pow]
    rw [Real.sq_sqrt (show (0 : ℝ) ≤ 7 / 5 by positivity)]
    rw [Real.sq_sqrt (show (0 : ℝ) ≤ Real.pi by positivity)]
    norm_num [Nat.factorial]
    try field_simp
    try norm_num
  rw [densityInner, coneI_33 z hz _ (triangle_compact _ _), pmX_30 hE, hN]
  simp only [QlmACH.tetCell, QlmACH.tet33, Nat.factorial]
  rw [sqrt_four_pi]
  have hp := sqrt_pi_ne
  have hs := sqrt_cast_ne (7 / 5) (by positivity)
  push_cast
  field_simp
  norm_num
  first | done | ring1 | (ring_nf; simp only [Complex.I_sq, Complex.I_pow_three, Complex.I_pow_four]; ring)

theorem tet_40 (rho x y z : ℝ) (hx : 0 < x) (hy : 0 < y) (hz : 0 < z) :
    QlmACH.tetCell rho x y z 4 0 = densityInner rho (coneOver z (triangle (x, 0) (0, y))) 4 ((0 : ℕ) : ℤ) := by
  have hE := expands_right x y hx hy
  have hN : Nlm 4 ((0 : ℕ) : ℤ) = (36) / Real.sqrt Real.pi := by
    refine Nlm_sq 4 0 _ (by norm_num) (by positivity) ?_
    have h1 := Real.pi_pos
    simp only [div_pow, mul_pow]
    rw [Real.sq_sqrt (show (0 : ℝ) ≤ Real.pi by positivity)]
    norm_num [Nat.factorial]
    try field_simp
    try norm_num
  rw [densityInner, coneI_40 z hz _ (triangle_compact _ _), pmX_00 hE, pmX_01 hE, pmX_02 hE, hN]
  simp only [QlmACH.tetCell, QlmACH.tet40, Nat.factorial]
  rw [sqrt_four_pi]
  have hp := sqrt_pi_ne
  push_cast
  field_simp
  norm_num
  first | done | ring1 | (ring_nf; simp only [Complex.I_sq, Complex.I_pow_three, Complex.I_pow_four]; ring)

theorem tet_41 (rho x y z : ℝ) (hx : 0 < x) (hy : 0 < y) (hz : 0 < z) :
    QlmACH.tetCell rho x y z 4 1 = densityInner rho (coneOver z (triangle (x, 0) (0, y))) 4 ((1 : ℕ) : ℤ) := by
  have hE := expands_right x y hx hy
  have hN : Nlm 4 ((1 : ℕ) : ℤ) = (90) / (Real.sqrt (5) * Real.sqrt Real.pi) := by
    refine Nlm_sq 4 1 _ (by norm_num) (by positivity) ?_
    have h1 := Real.pi_pos
    simp only [div_pow, mul_pow]
    rw [Real.sq_sqrt (show (0 : ℝ) ≤ 5 by positivity)]
    rw [Real.sq_sqrt (show (0 : ℝ) ≤ Real.pi by positivity)]
    norm_num [Nat.factorial]
    try field_simp
    try norm_num
  rw [densityInner, coneI_41 z hz _ (triangle_compact _ _), pmX_10 hE, pmX_11 hE, hN]
  simp only [QlmACH.tetCell, QlmACH.tet41, Nat.factorial]
  rw [sqrt_four_pi]
  have hp := sqrt_pi_ne
  have hs := sqrt_cast_ne (5) (by positivity)
  push_cast
  field_simp
  norm_num
  first | done | ring1 | (ring_nf; simp only [Complex.I_sq, Complex.I_pow_three, Complex.I_pow_four]; ring)

theorem tet_42 (rho x y z : ℝ) (hx : 0 < x) (hy : 0 < y) (hz : 0 < z) :
    QlmACH.tetCell rho x y z 4 2 = densityInner rho (coneOver z (triangle (x, 0) (0, y))) 4 ((2 : ℕ) : ℤ) := by
  have hE := expands_right x y hx hy
  have hN : Nlm 4 ((2 : ℕ) : ℤ) = (180) / (Real.sqrt (10) * Real.sqrt Real.pi) := by
    refine Nlm_sq 4 2 _ (by norm_num) (by positivity) ?_
    have h1 := Real.pi_pos
    simp only [div_pow, mul_pow]
    rw [Real.sq_sqrt (show (0 : ℝ) ≤ 10 by positivity)]
    rw [Real.sq_sqrt (show (0 : ℝ) ≤ Real.pi by positivity)]
    norm_num [Nat.factorial]
    try field_simp
    try norm_num
  rw [densityInner, coneI_42 z hz _ (triangle_compact _ _), pmX_20 hE, pmX_21 hE, hN]
  simp only [QlmACH.tetCell, QlmACH.tet42, Nat.factorial]
  rw [sqrt_four_pi]
  have hp := sqrt_pi_ne
  have hs := sqrt_cast_ne (10) (by positivity)
  push_cast
  field_simp
  norm_num
  first | done | ring1 | (ring_nf; simp only [Complex.I_sq, Complex.I_pow_three, Complex.I_pow_four]; ring)

theorem tet_43 (rho x y z : ℝ) (hx : 0 < x) (hy : 0 < y) (hz : 0 < z) :
    QlmACH.tetCell rho x y z 4 3 = densityInner rho (coneOver z (triangle (x, 0) (0, y))) 4 ((3 : ℕ) : ℤ) := by
  have hE := expands_right x y hx hy
  have hN : Nlm 4 ((3 : ℕ) : ℤ) = (630) / (Real.sqrt (35) * Real.sqrt Real.pi) := by
    refine Nlm_sq 4 3 _ (by norm_num) (by positivity) ?_
    have h1 := Real.pi_pos
    simp only [div_pow, mul_pow]
    rw [Real.sq_sqrt (show (0 : ℝ) ≤ 35 by positivity)]
    rw [Real.sq_sqrt (show (0 : ℝ) ≤ Real.pi by positivity)]
    norm_num [Nat.factorial]
    try field_simp
    try norm_num
  rw [densityInner, coneI_43 z hz _ (triangle_compact _ _), pmX_30 hE, hN]
  simp only [QlmACH.tetCell, QlmACH.tet43, Nat.factorial]
  rw [sqrt_four_pi]
  have hp := sqrt_pi_ne
  have hs := sqrt_cast_ne (35) (by positivity)
  push_cast
  field_simp
  norm_num
  first | done | ring1 | (ring_nf; simp only [Complex.I_sq, Complex.I_pow_three, Complex.I_pow_four]; ring)

theorem tet_44 (rho x y z : ℝ) (hx : 0 < x) (hy : 0 < y) (hz : 0 < z) :
    QlmACH.tetCell rho x y z 4 4 = densityInner rho (coneOver z (triangle (x, 0) (0, y))) 4 ((4 : ℕ) : ℤ) := by
  have hE := expands_right x y hx hy
  have hN : Nlm 4 ((4 : ℕ) : ℤ) = (2520) / (Real.sqrt (70) * Real.sqrt Real.pi) := by
    refine Nlm_sq 4 4 _ (by norm_num) (by positivity) ?_
    have h1 := Real.pi_pos
    simp only [div_pow, mul_pow]
    rw [Real.sq_sqrt (show (0 : ℝ) ≤ 70 by positivity)]
    rw [Real.sq_sqrt (show (0 : ℝ) ≤ Real.pi by positivity)]
    norm_num [Nat.factorial]
    try field_simp
    try norm_num
  rw [densityInner, coneI_44 z hz _ (triangle_compact _ _), pmX_40 hE, hN]
  simp only [QlmACH.tetCell, QlmACH.tet44, Nat.factorial]
  rw [sqrt_four_pi]
  have hp := sqrt_pi_ne
  have hs := sqrt_cast_ne (70) (by positivity)
  push_cast
  field_simp
  norm_num
  first | done | ring1 | (ring_nf; simp only [Complex.I_sq, Complex.I_pow_three, Complex.I_pow_four]; ring)

theorem tet_50 (rho x y z : ℝ) (hx : 0 < x) (hy : 0 < y) (hz : 0 < z) :
    QlmACH.tetCell rho x y z 5 0 = densityInner rho (coneOver z (triangle (x, 0) (0, y))) 5 ((0 : ℕ) : ℤ) := by
  have hE := expands_right x y hx hy
  have hN : Nlm 5 ((0 : ℕ) : ℤ) = (60) * Real.sqrt (11) / Real.sqrt Real.pi := by
    refine Nlm_sq 5 0 _ (by norm_num) (by positivity) ?_
    have h1 := Real.pi_pos
    simp only [div_pow, mul_pow]
    rw [Real.sq_sqrt (show (0 : ℝ) ≤ 11 by positivity)]
    rw [Real.sq_sqrt (show (0 : ℝ) ≤ Real.pi by positivity)]
    norm_num [Nat.factorial]
    try field_simp
    try norm_num
  rw [densityInner, coneI_50 z hz _ (triangle_compact _ _), pmX_00 hE, pmX_01 hE, pmX_02 hE, hN]
  simp only [QlmACH.tetCell, QlmACH.tet50, Nat.factorial]
  rw [sqrt_four_pi]
  have hp := sqrt_pi_ne
  have hs := sqrt_cast_ne (11) (by positivity)
  push_cast
  field_simp
  norm_num
  first | done | ring1 | (ring_nf; simp only [Complex.I_sq, Complex.I_pow_three, Complex.I_pow_four]; ring)

theorem tet_51 (rho x y z : ℝ) (hx : 0 < x) (hy : 0 < y) (hz : 0 < z) :
    QlmACH.tetCell rho x y z 5 1 = densityInner rho (coneOver z (triangle (x, 0) (0, y))) 5 ((1 : ℕ) : ℤ) := by
  have hE := expands_right x y hx hy
  have hN : Nlm 5 ((1 : ℕ) : ℤ) = (360) * Real.sqrt (11 / 30) / Real.sqrt Real.pi := by
    refine Nlm_sq 5 1 _ (by norm_num) (by positivity) ?_
    have h1 := Real.pi_pos
    simp only [div_pow, mul_pow]
    rw [Real.sq_sqrt (show (0 : ℝ) ≤ 11 / 30 by positivity)]
    rw [Real.sq_sqrt (show (0 : ℝ) ≤ Real.pi by positivity)]
    norm_num [Nat.factorial]
    try field_simp
    try norm_num
  rw [densityInner, coneI_51 z hz _ (triangle_compact _ _), pmX_10 hE, pmX_11 hE, pmX_12 hE, hN]
  simp only [QlmACH.tetCell, QlmACH.tet51, Nat.factorial]
  rw [sqrt_four_pi]
  have hp := sqrt_pi_ne
  have hs := sqrt_cast_ne (11 / 30) (by positivity)
  push_cast
  field_simp
  norm_num
  first | done | ring1 | (ring_nf; simp only [Complex.I_sq, Complex.I_pow_three, Complex.I_pow_four]; ring)

theorem tet_52 (rho x y z : ℝ) (hx : 0 < x) (hy : 0 < y) (hz : 0 < z) :
    QlmACH.tetCell rho x y z 5 2 = densityInner rho (coneOver z (triangle (x, 0) (0, y))) 5 ((2 : ℕ) : ℤ) := by
  have hE := expands_right x y hx hy
  have hN : Nlm 5 ((2 : ℕ) : ℤ) = (1260) * Real.sqrt (11 / 210) / Real.sqrt Real.pi := by
    refine Nlm_sq 5 2 _ (by norm_num) (by positivity) ?_
    have h1 := Real.pi_pos
    simp only [div_pow, mul_pow]
    rw [Real.sq_sqrt (show (0 : ℝ) ≤ 11 / 210 by positivity)]
    rw [Real.sq_sqrt (show (0 : ℝ) ≤ Real.pi by positivity)]
    norm_num [Nat.factorial]
    try field_simp
    try norm_num
  rw [densityInner, coneI_52 z hz _ (triangle_compact _ _), pmX_20 hE, pmX_21 hE, hN]
  simp only [QlmACH.tetCell, QlmACH.tet52, Nat.factorial]
  rw [sqrt_four_pi]
  have hp := sqrt_pi_ne
  have hs := sqrt_cast_ne (11 / 210) (by positivity)
  push_cast
  field_simp
  norm_num
  first | done | ring1 | (ring_nf; simp only [Complex.I_sq, Complex.I_pow_three, Complex.I_pow_four]; ring)

theorem tet_53 (rho x y z : ℝ) (hx : 0 < x) (hy : 0 < y) (hz : 0 < z) :
    QlmACH.tetCell rho x y z 5 3 = densityInner rho (coneOver z (triangle (x, 0) (0, y))) 5 ((3 : ℕ) : ℤ) := by
  have hE := expands_right x y hx hy
  have hN : Nlm 5 ((3 : ℕ) : ℤ) = (840) * Real.sqrt (11 / 35) / Real.sqrt Real.pi := by
    refine Nlm_sq 5 3 _ (by norm_num) (by positivity) ?_
    have h1 := Real.pi_pos
    simp only [div_pow, mul_pow]
    rw [Real.sq_sqrt (show (0 : ℝ) ≤ 11 / 35 by positivity)]
    rw [Real.sq_sqrt (show (0 : ℝ) ≤ Real.pi by positivity)]
    norm_num [Nat.factorial]
    try field_simp
    try norm_num
  rw [densityInner, coneI_53 z hz _ (triangle_compact _ _), pmX_30 hE, pmX_31 hE, hN]
  simp only [QlmACH.tetCell, QlmACH.tet53, Nat.factorial]
  rw [sqrt_four_pi]
  have hp := sqrt_pi_ne
  have hs := sqrt_cast_ne (11 / 35) (by positivity)
  push_cast
  field_simp
  norm_num
  first | done | ring1 | (ring_nf; simp only [Complex.I_sq, Complex.I_pow_three, Complex.I_pow_four]; ring)

theorem tet_54 (rho x y z : ℝ) (hx : 0 < x) (hy : 0 < y) (hz : 0 < z) :
    QlmACH.tetCell rho x y z 5 4 = densityInner rho (coneOver z (triangle (x, 0) (0, y))) 5 ((4 : ℕ) : ℤ) := by
  have hE := expands_right x y hx hy
  have hN : Nlm 5 ((4 : ℕ) : ℤ) = (2520) * Real.sqrt (11 / 70) / Real.sqrt Real.pi := by
    refine Nlm_sq 5 4 _ (by norm_num) (by positivity) ?_
    have h1 := Real.pi_pos
    simp only [div_pow, mul_pow]
    rw [Real.sq_sqrt (show (0 : ℝ) ≤ 11 / 70 by positivity)]
    rw [Real.sq_sqrt (show (0 : ℝ) ≤ Real.pi by positivity)]
    norm_num [Nat.factorial]
    try field_simp
    try norm_num
  rw [densityInner, coneI_54 z hz _ (triangle_compact _ _), pmX_40 hE, hN]
  simp only [QlmACH.tetCell, QlmACH.tet54, Nat.factorial]
  rw [sqrt_four_pi]
  have hp := sqrt_pi_ne
  have hs := sqrt_cast_ne (11 / 70) (by positivity)
  push_cast
  field_simp
  norm_num
  first | done | ring1 | (ring_nf; simp only [Complex.I_sq, Complex.I_pow_three, Complex.I_pow_four]; ring)

theorem tet_55 (rho x y z : ℝ) (hx : 0 < x) (hy : 0 < y) (hz : 0 < z) :
    QlmACH.tetCell rho x y z 5 5 = densityInner rho (coneOver z (triangle (x, 0) (0, y))) 5 ((5 : ℕ) : ℤ) := by
  have hE := expands_right x y hx hy
  have hN : Nlm 5 ((5 : ℕ) : ℤ) = (2520) * Real.sqrt (11 / 7) / Real.sqrt Real.pi := by
    refine Nlm_sq 5 5 _ (by norm_num) (by positivity) ?_
    have h1 := Real.pi_pos
    simp only [div_pow, mul_pow]
    rw [Real.sq_sqrt (show (0 : ℝ) ≤ 11 / 7 by positivity)]
    rw [Real.sq_sqrt (show (0 : ℝ) ≤ Real.pi by positivity)]
    norm_num [Nat.factorial]
    try field_simp
    try norm_num
  rw [densityInner, coneI_55 z hz _ (triangle_compact _ _), pmX_50 hE, hN]
  simp only [QlmACH.tetCell, QlmACH.tet55, Nat.factorial]
  rw [sqrt_four_pi]
  have hp := sqrt_pi_ne
  have hs := sqrt_cast_ne (11 / 7) (by positivity)
  push_cast
  field_simp
  norm_num
  first | done | ring1 | (ring_nf; simp only [Complex.I_sq, Complex.I_pow_three, Complex.I_pow_four]; ring)

theorem tet_cells (rho x y z : ℝ) (hx : 0 < x) (hy : 0 < y) (hz : 0 < z) (l m : ℕ) (hm : m ≤ l) (hl : l ≤ 5) :
    QlmACH.tetCell rho x y z l m = densityInner rho (coneOver z (triangle (x, 0) (0, y))) l m := by
  refine cells21 (fun l m => QlmACH.tetCell rho x y z l m = densityInner rho (coneOver z (triangle (x, 0) (0, y))) l ((m : ℕ) : ℤ))
    (tet_00 rho x y z hx hy hz) (tet_10 rho x y z hx hy hz) (tet_11 rho x y z hx hy hz) (tet_20 rho x y z hx hy hz) (tet_21 rho x y z hx hy hz) (tet_22 rho x y z hx hy hz) (tet_30 rho x y z hx hy hz) (tet_31 rho x y z hx hy hz) (tet_32 rho x y z hx hy hz) (tet_33 rho x y z hx hy hz) (tet_40 rho x y z hx hy hz) (tet_41 rho x y z hx hy hz) (tet_42 rho x y z hx hy hz) (tet_43 rho x y z hx hy hz) (tet_44 rho x y z hx hy hz) (tet_50 rho x y z hx hy hz) (tet_51 rho x y z hx hy hz) (tet_52 rho x y z hx hy hz) (tet_53 rho x y z hx hy hz) (tet_54 rho x y z hx hy hz) (tet_55 rho x y z hx hy hz) l m hm hl

theorem tet_high (rho x y z : ℝ) (l m : ℕ) (hl : 5 < l) : QlmACH.tetCell rho x y z l m = 0 := by
  obtain ⟨k, rfl⟩ : ∃ k, l = k + 6 := ⟨l - 6, by omega⟩
  rfl

end Newt.Ach
