import Verif.Proofs.AchPlane

/-! # Tri cells against the volume integrals -/

namespace Newt.Ach

open MeasureTheory Finset Spec

theorem tri_00 (rho h d y1 y2 : ℝ) (hh : 0 < h) (hd : d ≠ 0) :
    QlmACH.triCell rho h d y1 y2 0 0 = densityInner rho (prism h (triangle (d, y1) (d, y2))) 0 ((0 : ℕ) : ℤ) := by
  obtain ⟨c, hc, hT⟩ := pm_triangle_signed d y1 y2 hd
  have hE := expands_tint d y1 y2
  have hN : Nlm 0 ((0 : ℕ) : ℤ) = (1 / 2) / Real.sqrt Real.pi := by
    refine Nlm_sq 0 0 _ (by norm_num) (by positivity) ?_
    have h1 := Real.pi_pos
    simp only [div_pow, mul_pow]
    rw [Real.sq_sqrt (show (0 : ℝ) ≤ Real.pi by positivity)]
    norm_num [Nat.factorial]
    try field_simp
    try norm_num
  rw [densityInner, prismI_00 h hh _ (triangle_compact _ _), hT 0 0, pmX_00 hE, hN]
  simp only [QlmACH.triCell, QlmACH.tri00, ← hc]
  have hp := sqrt_pi_ne
  push_cast
  field_simp
  norm_num
  first | done | ring1 | (ring_nf; simp only [Complex.I_sq, Complex.I_pow_three, Complex.I_pow_four, Ipow5]; ring)

theorem tri_10 (rho h d y1 y2 : ℝ) (hh : 0 < h) (hd : d ≠ 0) :
    QlmACH.triCell rho h d y1 y2 1 0 = densityInner rho (prism h (triangle (d, y1) (d, y2))) 1 ((0 : ℕ) : ℤ) := by
  obtain ⟨c, hc, hT⟩ := pm_triangle_signed d y1 y2 hd
  have hE := expands_tint d y1 y2
  rw [densityInner, prismI_10 h hh _ (triangle_compact _ _), mul_zero]
  rfl

theorem tri_11 (rho h d y1 y2 : ℝ) (hh : 0 < h) (hd : d ≠ 0) :
    QlmACH.triCell rho h d y1 y2 1 1 = densityInner rho (prism h (triangle (d, y1) (d, y2))) 1 ((1 : ℕ) : ℤ) := by
  obtain ⟨c, hc, hT⟩ := pm_triangle_signed d y1 y2 hd
  have hE := expands_tint d y1 y2
  have hN : Nlm 1 ((1 : ℕ) : ℤ) = (3) / (Real.sqrt (6) * Real.sqrt Real.pi) := by
    refine Nlm_sq 1 1 _ (by norm_num) (by positivity) ?_
    have h1 := Real.pi_pos
    simp only [div_pow, mul_pow]
    rw [Real.sq_sqrt (show (0 : ℝ) ≤ 6 by positivity)]
    rw [Real.sq_sqrt (show (0 : ℝ) ≤ Real.pi by positivity)]
    norm_num [Nat.factorial]
    try field_simp
    try norm_num
  rw [densityInner, prismI_11 h hh _ (triangle_compact _ _), hT 1 0, pmX_10 hE, hN]
  simp only [QlmACH.triCell, QlmACH.tri11, ← hc]
  have hp := sqrt_pi_ne
  have hs := sqrt_cast_ne (6) (by positivity)
  push_cast
  field_simp
  norm_num
  first | done | ring1 | (ring_nf; simp only [Complex.I_sq, Complex.I_pow_three, Complex.I_pow_four, Ipow5]; ring)

theorem tri_20 (rho h d y1 y2 : ℝ) (hh : 0 < h) (hd : d ≠ 0) :
    QlmACH.triCell rho h d y1 y2 2 0 = densityInner rho (prism h (triangle (d, y1) (d, y2))) 2 ((0 : ℕ) : ℤ) := by
  obtain ⟨c, hc, hT⟩ := pm_triangle_signed d y1 y2 hd
  have hE := expands_tint d y1 y2
  have hN : Nlm 2 ((0 : ℕ) : ℤ) = (1) * Real.sqrt (5) / Real.sqrt Real.pi := by
    refine Nlm_sq 2 0 _ (by norm_num) (by positivity) ?_
    have h1 := Real.pi_pos
    simp only [div_pow, mul_pow]
    rw [Real.sq_sqrt (show (0 : ℝ) ≤ 5 by positivity)]
    rw [Real.sq_sqrt (show (0 : ℝ) ≤ Real.pi by positivity)]
    norm_num [Nat.factorial]
    try field_simp
    try norm_num
  rw [densityInner, prismI_20 h hh _ (triangle_compact _ _), hT 0 0, pmX_00 hE, hT 0 1, pmX_01 hE, hN]
  simp only [QlmACH.triCell, QlmACH.tri20, ← hc]
  have hp := sqrt_pi_ne
  have hs := sqrt_cast_ne (5) (by positivity)
  push_cast
  field_simp
  norm_num
  first | done | ring1 | (ring_nf; simp only [Complex.I_sq, Complex.I_pow_three, Complex.I_pow_four, Ipow5]; ring)

theorem tri_21 (rho h d y1 y2 : ℝ) (hh : 0 < h) (hd : d ≠ 0) :
    QlmACH.triCell rho h d y1 y2 2 1 = densityInner rho (prism h (triangle (d, y1) (d, y2))) 2 ((1 : ℕ) : ℤ) := by
  obtain ⟨c, hc, hT⟩ := pm_triangle_signed d y1 y2 hd
  have hE := expands_tint d y1 y2
  rw [densityInner, prismI_21 h hh _ (triangle_compact _ _), mul_zero]
  rfl

theorem tri_22 (rho h d y1 y2 : ℝ) (hh : 0 < h) (hd : d ≠ 0) :
    QlmACH.triCell rho h d y1 y2 2 2 = densityInner rho (prism h (triangle (d, y1) (d, y2))) 2 ((2 : ℕ) : ℤ) := by
  obtain ⟨c, hc, hT⟩ := pm_triangle_signed d y1 y2 hd
  have hE := expands_tint d y1 y2
  have hN : Nlm 2 ((2 : ℕ) : ℤ) = (6) * Real.sqrt (5 / 6) / Real.sqrt Real.pi := by
    refine Nlm_sq 2 2 _ (by norm_num) (by positivity) ?_
    have h1 := Real.pi_pos
    simp only [div_pow, mul_pow]
    rw [Real.sq_sqrt (show (0 : ℝ) ≤ 5 / 6 by positivity)]
    rw [Real.sq_sqrt (show (0 : ℝ) ≤ Real.pi by positivity)]
    norm_num [Nat.factorial]
    try field_simp
    try norm_num
  rw [densityInner, prismI_22 h hh _ (triangle_compact _ _), hT 2 0, pmX_20 hE, hN]
  simp only [QlmACH.triCell, QlmACH.tri22, ← hc]
  have hp := sqrt_pi_ne
  have hs := sqrt_cast_ne (5 / 6) (by positivity)
  push_cast
  field_simp
  norm_num
  first | done | ring1 | (ring_nf; simp only [Complex.I_sq, Complex.I_pow_three, Complex.I_pow_four, Ipow5]; ring)

theorem tri_30 (rho h d y1 y2 : ℝ) (hh : 0 < h) (hd : d ≠ 0) :
    QlmACH.triCell rho h d y1 y2 3 0 = densityInner rho (prism h (triangle (d, y1) (d, y2))) 3 ((0 : ℕ) : ℤ) := by
  obtain ⟨c, hc, hT⟩ := pm_triangle_signed d y1 y2 hd
  have hE := expands_tint d y1 y2
  rw [densityInner, prismI_30 h hh _ (triangle_compact _ _), mul_zero]
  rfl

theorem tri_31 (rho h d y1 y2 : ℝ) (hh : 0 < h) (hd : d ≠ 0) :
    QlmACH.triCell rho h d y1 y2 3 1 = densityInner rho (prism h (triangle (d, y1) (d, y2))) 3 ((1 : ℕ) : ℤ) := by
  obtain ⟨c, hc, hT⟩ := pm_triangle_signed d y1 y2 hd
  have hE := expands_tint d y1 y2
  have hN : Nlm 3 ((1 : ℕ) : ℤ) = (6) * Real.sqrt (7 / 3) / Real.sqrt Real.pi := by
    refine Nlm_sq 3 1 _ (by norm_num) (by positivity) ?_
    have h1 := Real.pi_pos
    simp only [div_pow, mul_pow]
    rw [Real.sq_sqrt (show (0 : ℝ) ≤ 7 / 3 by positivity)]
    rw [Real.sq_sqrt (show (0 : ℝ) ≤ Real.pi by positivity)]
    norm_num [Nat.factorial]
    try field_simp
    try norm_num
  rw [densityInner, prismI_31 h hh _ (triangle_compact _ _), hT 1 0, pmX_10 hE, hT 1 1, pmX_11 hE, hN]
  simp only [QlmACH.triCell, QlmACH.tri31, ← hc]
  have hp := sqrt_pi_ne
  have hs := sqrt_cast_ne (7 / 3) (by positivity)
  push_cast
  field_simp
  norm_num
  first | done | ring1 | (ring_nf; simp only [Complex.I_sq, Complex.I_pow_three, Complex.I_pow_four, Ipow5]; ring)

theorem tri_32 (rho h d y1 y2 : ℝ) (hh : 0 < h) (hd : d ≠ 0) :
    QlmACH.triCell rho h d y1 y2 3 2 = densityInner rho (prism h (triangle (d, y1) (d, y2))) 3 ((2 : ℕ) : ℤ) := by
  obtain ⟨c, hc, hT⟩ := pm_triangle_signed d y1 y2 hd
  have hE := expands_tint d y1 y2
  rw [densityInner, prismI_32 h hh _ (triangle_compact _ _), mul_zero]
  rfl

theorem tri_33 (rho h d y1 y2 : ℝ) (hh : 0 < h) (hd : d ≠ 0) :
    QlmACH.triCell rho h d y1 y2 3 3 = densityInner rho (prism h (triangle (d, y1) (d, y2))) 3 ((3 : ℕ) : ℤ) := by
  obtain ⟨c, hc, hT⟩ := pm_triangle_signed d y1 y2 hd
  have hE := expands_tint d y1 y2
  have hN : Nlm 3 ((3 : ℕ) : ℤ) = (30) * Real.sqrt (7 / 5) / Real.sqrt Real.pi := by
    refine Nlm_sq 3 3 _ (by norm_num) (by positivity) ?_
    have h1 := Real.pi_pos
    simp only [div_pow, mul_pow]
    rw [Real.sq_sqrt (show (0 : ℝ) ≤ 7 / 5 by positivity)]
    rw [Real.sq_sqrt (show (0 : ℝ) ≤ Real.pi by positivity)]
    norm_num [Nat.factorial]
    try field_simp
    try norm_num
  rw [densityInner, prismI_33 h hh _ (triangle_compact _ _), hT 3 0, pmX_30 hE, hN]
  simp only [QlmACH.triCell, QlmACH.tri33, ← hc]
  have hp := sqrt_pi_ne
  have hs := sqrt_cast_ne (7 / 5) (by positivity)
  push_cast
  field_simp
  norm_num
  first | done | ring1 | (ring_nf; simp only [Complex.I_sq, Complex.I_pow_three, Complex.I_pow_four, Ipow5]; ring)

theorem tri_40 (rho h d y1 y2 : ℝ) (hh : 0 < h) (hd : d ≠ 0) :
    QlmACH.triCell rho h d y1 y2 4 0 = densityInner rho (prism h (triangle (d, y1) (d, y2))) 4 ((0 : ℕ) : ℤ) := by
  obtain ⟨c, hc, hT⟩ := pm_triangle_signed d y1 y2 hd
  have hE := expands_tint d y1 y2
  have hN : Nlm 4 ((0 : ℕ) : ℤ) = (36) / Real.sqrt Real.pi := by
    refine Nlm_sq 4 0 _ (by norm_num) (by positivity) ?_
    have h1 := Real.pi_pos
    simp only [div_pow, mul_pow]
    rw [Real.sq_sqrt (show (0 : ℝ) ≤ Real.pi by positivity)]
    norm_num [Nat.factorial]
    try field_simp
    try norm_num
  rw [densityInner, prismI_40 h hh _ (triangle_compact _ _), hT 0 0, pmX_00 hE, hT 0 1, pmX_01 hE, hT 0 2, pmX_02 hE, hN]
  simp only [QlmACH.triCell, QlmACH.tri40, ← hc]
  have hp := sqrt_pi_ne
  push_cast
  field_simp
  norm_num
  first | done | ring1 | (ring_nf; simp only [Complex.I_sq, Complex.I_pow_three, Complex.I_pow_four, Ipow5]; ring)

theorem tri_41 (rho h d y1 y2 : ℝ) (hh : 0 < h) (hd : d ≠ 0) :
    QlmACH.triCell rho h d y1 y2 4 1 = densityInner rho (prism h (triangle (d, y1) (d, y2))) 4 ((1 : ℕ) : ℤ) := by
  obtain ⟨c, hc, hT⟩ := pm_triangle_signed d y1 y2 hd
  have hE := expands_tint d y1 y2
  rw [densityInner, prismI_41 h hh _ (triangle_compact _ _), mul_zero]
  rfl

theorem tri_42 (rho h d y1 y2 : ℝ) (hh : 0 < h) (hd : d ≠ 0) :
    QlmACH.triCell rho h d y1 y2 4 2 = densityInner rho (prism h (triangle (d, y1) (d, y2))) 4 ((2 : ℕ) : ℤ) := by
  obtain ⟨c, hc, hT⟩ := pm_triangle_signed d y1 y2 hd
  have hE := expands_tint d y1 y2
  have hN : Nlm 4 ((2 : ℕ) : ℤ) = (180) / (Real.sqrt (10) * Real.sqrt Real.pi) := by
    refine Nlm_sq 4 2 _ (by norm_num) (by positivity) ?_
    have h1 := Real.pi_pos
    simp only [div_pow, mul_pow]
    rw [Real.sq_sqrt (show (0 : ℝ) ≤ 10 by positivity)]
    rw [Real.sq_sqrt (show (0 : ℝ) ≤ Real.pi by positivity)]
    norm_num [Nat.factorial]
    try field_simp
    try norm_num
  rw [densityInner, prismI_42 h hh _ (triangle_compact _ _), hT 2 0, pmX_20 hE, hT 2 1, pmX_21 hE, hN]
  simp only [QlmACH.triCell, QlmACH.tri42, ← hc]
  have hp := sqrt_pi_ne
  have hs := sqrt_cast_ne (10) (by positivity)
  push_cast
  field_simp
  norm_num
  first | done | ring1 | (ring_nf; simp only [Complex.I_sq, Complex.I_pow_three, Complex.I_pow_four, Ipow5]; ring)

theorem tri_43 (rho h d y1 y2 : ℝ) (hh : 0 < h) (hd : d ≠ 0) :
    QlmACH.triCell rho h d y1 y2 4 3 = densityInner rho (prism h (triangle (d, y1) (d, y2))) 4 ((3 : ℕ) : ℤ) := by
  obtain ⟨c, hc, hT⟩ := pm_triangle_signed d y1 y2 hd
  have hE := expands_tint d y1 y2
  rw [densityInner, prismI_43 h hh _ (triangle_compact _ _), mul_zero]
  rfl

theorem tri_44 (rho h d y1 y2 : ℝ) (hh : 0 < h) (hd : d ≠ 0) :
    QlmACH.triCell rho h d y1 y2 4 4 = densityInner rho (prism h (triangle (d, y1) (d, y2))) 4 ((4 : ℕ) : ℤ) := by
  obtain ⟨c, hc, hT⟩ := pm_triangle_signed d y1 y2 hd
  have hE := expands_tint d y1 y2
  have hN : Nlm 4 ((4 : ℕ) : ℤ) = (360) * Real.sqrt (7 / 10) / Real.sqrt Real.pi := by
    refine Nlm_sq 4 4 _ (by norm_num) (by positivity) ?_
    have h1 := Real.pi_pos
    simp only [div_pow, mul_pow]
    rw [Real.sq_sqrt (show (0 : ℝ) ≤ 7 / 10 by positivity)]
    rw [Real.sq_sqrt (show (0 : ℝ) ≤ Real.pi by positivity)]
    norm_num [Nat.factorial]
    try field_simp
    try norm_num
  rw [densityInner, prismI_44 h hh _ (triangle_compact _ _), hT 4 0, pmX_40 hE, hN]
  simp only [QlmACH.triCell, QlmACH.tri44, ← hc]
  have hp := sqrt_pi_ne
  have hs := sqrt_cast_ne (7 / 10) (by positivity)
  push_cast
  field_simp
  norm_num
  first | done | ring1 | (ring_nf; simp only [Complex.I_sq, Complex.I_pow_three, Complex.I_pow_four, Ipow5]; ring)

theorem tri_50 (rho h d y1 y2 : ℝ) (hh : 0 < h) (hd : d ≠ 0) :
    QlmACH.triCell rho h d y1 y2 5 0 = densityInner rho (prism h (triangle (d, y1) (d, y2))) 5 ((0 : ℕ) : ℤ) := by
  obtain ⟨c, hc, hT⟩ := pm_triangle_signed d y1 y2 hd
  have hE := expands_tint d y1 y2
  rw [densityInner, prismI_50 h hh _ (triangle_compact _ _), mul_zero]
  rfl

theorem tri_51 (rho h d y1 y2 : ℝ) (hh : 0 < h) (hd : d ≠ 0) :
    QlmACH.triCell rho h d y1 y2 5 1 = densityInner rho (prism h (triangle (d, y1) (d, y2))) 5 ((1 : ℕ) : ℤ) := by
  obtain ⟨c, hc, hT⟩ := pm_triangle_signed d y1 y2 hd
  have hE := expands_tint d y1 y2
  have hN : Nlm 5 ((1 : ℕ) : ℤ) = (360) * Real.sqrt (11 / 30) / Real.sqrt Real.pi := by
    refine Nlm_sq 5 1 _ (by norm_num) (by positivity) ?_
    have h1 := Real.pi_pos
    simp only [div_pow, mul_pow]
    rw [Real.sq_sqrt (show (0 : ℝ) ≤ 11 / 30 by positivity)]
    rw [Real.sq_sqrt (show (0 : ℝ) ≤ Real.pi by positivity)]
    norm_num [Nat.factorial]
    try field_simp
    try norm_num
  rw [densityInner, prismI_51 h hh _ (triangle_compact _ _), hT 1 0, pmX_10 hE, hT 1 1, pmX_11 hE, hT 1 2, pmX_12 hE, hN]
  simp only [QlmACH.triCell, QlmACH.tri51, ← hc]
  have hp := sqrt_pi_ne
  have hs := sqrt_cast_ne (11 / 30) (by positivity)
  push_cast
  field_simp
  norm_num
  first | done | ring1 | (ring_nf; simp only [Complex.I_sq, Complex.I_pow_three, Complex.I_pow_four, Ipow5]; ring)

theorem tri_52 (rho h d y1 y2 : ℝ) (hh : 0 < h) (hd : d ≠ 0) :
    QlmACH.triCell rho h d y1 y2 5 2 = densityInner rho (prism h (triangle (d, y1) (d, y2))) 5 ((2 : ℕ) : ℤ) := by
  obtain ⟨c, hc, hT⟩ := pm_triangle_signed d y1 y2 hd
  have hE := expands_tint d y1 y2
  rw [densityInner, prismI_52 h hh _ (triangle_compact _ _), mul_zero]
  rfl

theorem tri_53 (rho h d y1 y2 : ℝ) (hh : 0 < h) (hd : d ≠ 0) :
    QlmACH.triCell rho h d y1 y2 5 3 = densityInner rho (prism h (triangle (d, y1) (d, y2))) 5 ((3 : ℕ) : ℤ) := by
  obtain ⟨c, hc, hT⟩ := pm_triangle_signed d y1 y2 hd
  have hE := expands_tint d y1 y2
  have hN : Nlm 5 ((3 : ℕ) : ℤ) = (840) * Real.sqrt (11 / 35) / Real.sqrt Real.pi := by
    refine Nlm_sq 5 3 _ (by norm_num) (by positivity) ?_
    have h1 := Real.pi_pos
    simp only [div_pow, mul_pow]
    rw [Real.sq_sqrt (show (0 : ℝ) ≤ 11 / 35 by positivity)]
    rw [Real.sq_sqrt (show (0 : ℝ) ≤ Real.pi by positivity)]
    norm_num [Nat.factorial]
    try field_simp
    try norm_num
  rw [densityInner, prismI_53 h hh _ (triangle_compact _ _), hT 3 0, pmX_30 hE, hT 3 1, pmX_31 hE, hN]
  simp only [QlmACH.triCell, QlmACH.tri53, ← hc]
  have hp := sqrt_pi_ne
  have hs := sqrt_cast_ne (11 / 35) (by positivity)
  push_cast
  field_simp
  norm_num
  first | done | ring1 | (ring_nf; simp only [Complex.I_sq, Complex.I_pow_three, Complex.I_pow_four, Ipow5]; ring)

theorem tri_54 (rho h d y1 y2 : ℝ) (hh : 0 < h) (hd : d ≠ 0) :
    QlmACH.triCell rho h d y1 y2 5 4 = densityInner rho (prism h (triangle (d, y1) (d, y2))) 5 ((4 : ℕ) : ℤ) := by
  obtain ⟨c, hc, hT⟩ := pm_triangle_signed d y1 y2 hd
  have hE := expands_tint d y1 y2
  rw [densityInner, prismI_54 h hh _ (triangle_compact _ _), mul_zero]
  rfl

theorem tri_55 (rho h d y1 y2 : ℝ) (hh : 0 < h) (hd : d ≠ 0) :
    QlmACH.triCell rho h d y1 y2 5 5 = densityInner rho (prism h (triangle (d, y1) (d, y2))) 5 ((5 : ℕ) : ℤ) := by
  obtain ⟨c, hc, hT⟩ := pm_triangle_signed d y1 y2 hd
  have hE := expands_tint d y1 y2
  have hN : Nlm 5 ((5 : ℕ) : ℤ) = (2520) * Real.sqrt (11 / 7) / Real.sqrt Real.pi := by
    refine Nlm_sq 5 5 _ (by norm_num) (by positivity) ?_
    have h1 := Real.pi_pos
    simp only [div_pow, mul_pow]
    rw [Real.sq_sqrt (show (0 : ℝ) ≤ 11 / 7 by positivity)]
    rw [Real.sq_sqrt (show (0 : ℝ) ≤ Real.pi by positivity)]
    norm_num [Nat.factorial]
    try field_simp
    try norm_num
  rw [densityInner, prismI_55 h hh _ (triangle_compact _ _), hT 5 0, pmX_50 hE, hN]
  simp only [QlmACH.triCell, QlmACH.tri55, ← hc]
  have hp := sqrt_pi_ne
  have hs := sqrt_cast_ne (11 / 7) (by positivity)
  push_cast
  field_simp
  norm_num
  first | done | ring1 | (ring_nf; simp only [Complex.I_sq, Complex.I_pow_three, Complex.I_pow_four, Ipow5]; ring)

theorem tri_cells (rho h d y1 y2 : ℝ) (hh : 0 < h) (hd : d ≠ 0) (l m : ℕ) (hm : m ≤ l) (hl : l ≤ 5) :
    QlmACH.triCell rho h d y1 y2 l m = densityInner rho (prism h (triangle (d, y1) (d, y2))) l m := by
  refine cells21 (fun l m => QlmACH.triCell rho h d y1 y2 l m = densityInner rho (prism h (triangle (d, y1) (d, y2))) l ((m : ℕ) : ℤ))
    (tri_00 rho h d y1 y2 hh hd) (tri_10 rho h d y1 y2 hh hd) (tri_11 rho h d y1 y2 hh hd) (tri_20 rho h d y1 y2 hh hd) (tri_21 rho h d y1 y2 hh hd) (tri_22 rho h d y1 y2 hh hd) (tri_30 rho h d y1 y2 hh hd) (tri_31 rho h d y1 y2 hh hd) (tri_32 rho h d y1 y2 hh hd) (tri_33 rho h d y1 y2 hh hd) (tri_40 rho h d y1 y2 hh hd) (tri_41 rho h d y1 y2 hh hd) (tri_42 rho h d y1 y2 hh hd) (tri_43 rho h d y1 y2 hh hd) (tri_44 rho h d y1 y2 hh hd) (tri_50 rho h d y1 y2 hh hd) (tri_51 rho h d y1 y2 hh hd) (tri_52 rho h d y1 y2 hh hd) (tri_53 rho h d y1 y2 hh hd) (tri_54 rho h d y1 y2 hh hd) (tri_55 rho h d y1 y2 hh hd) l m hm hl

theorem tri_high (rho h d y1 y2 : ℝ) (l m : ℕ) (hl : 5 < l) : QlmACH.triCell rho h d y1 y2 l m = 0 := by
  obtain ⟨k, rfl⟩ : ∃ k, l = k + 6 := ⟨l - 6, by omega⟩
  rfl

end Newt.Ach
