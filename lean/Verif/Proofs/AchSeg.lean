import Verif.Proofs.AchPlane

/-! # Seg cells against the volume integrals -/

namespace Newt.Ach

open MeasureTheory Finset Spec

theorem seg_00 (rho t r p : ℝ) (ht : 0 < t) (hr : 0 < r) (hp0 : 0 < p) (hp2 : p < Real.pi / 2) :
    QlmACH.segCell rho t r (r * Real.cos p) 0 0 = densityInner rho (prism t (segment r (r * Real.cos p))) 0 ((0 : ℕ) : ℤ) := by
  have hSC := Real.sin_sq_add_cos_sq p
  have hE := expands_tint (r * Real.cos p) (-(r * Real.sin p)) (r * Real.sin p)
  have e1 : r * Real.cos p / r = Real.cos p := by field_simp
  have e2 : Real.arccos (Real.cos p) = p := Real.arccos_cos hp0.le (by linarith [Real.pi_pos])
  have e3 : Real.sqrt (1 - Real.cos p ^ 2) = Real.sin p := by
    rw [← Real.sin_sq, Real.sqrt_sq (Real.sin_nonneg_of_nonneg_of_le_pi hp0.le (by linarith [Real.pi_pos]))]
  have hN : Nlm 0 ((0 : ℕ) : ℤ) = (1) / Real.sqrt (4 * Real.pi) := by
    refine Nlm_sq 0 0 _ (by norm_num) (by positivity) ?_
    have h1 := Real.pi_pos
    simp only [div_pow, mul_pow]
    rw [Real.sq_sqrt (show (0 : ℝ) ≤ 4 * Real.pi by positivity)]
    norm_num [Nat.factorial]
    try field_simp
    try norm_num
  rw [densityInner, prismI_00 t ht _ (segment_compact _ _ hr.le), pm_seg r p hr hp0 hp2 0 0, pm_sec0 0 r 0 p le_rfl hr.le hp0.le (by linarith [Real.pi_pos])  0, pmX_00 hE, hN]
  simp only [QlmACH.segCell, QlmACH.seg00, e1, e2, e3, Nat.cast_ofNat, Nat.cast_one, one_mul, sin_2p, sin_3p, sin_4p, sin_5p]
  rw [sqrt_four_pi]
  have hp := sqrt_pi_ne
  have hs := sqrt_cast_ne (4 * Real.pi) (by positivity)
  generalize Real.sin p = S at *
  generalize Real.cos p = C at *
  push_cast
  have hSC' : (S : ℂ) ^ 2 = 1 - (C : ℂ) ^ 2 := by rw [eq_sub_iff_add_eq]; exact_mod_cast hSC
  have g3 : (S : ℂ) ^ 3 = S * (1 - (C : ℂ) ^ 2) := by rw [pow_succ, hSC']; ring
  have g4 : (S : ℂ) ^ 4 = (1 - (C : ℂ) ^ 2) ^ 2 := by rw [show (4 : ℕ) = 2 * 2 by norm_num, pow_mul, hSC']
  have g5 : (S : ℂ) ^ 5 = S * (1 - (C : ℂ) ^ 2) ^ 2 := by rw [pow_succ, g4]; ring
  have g6 : (S : ℂ) ^ 6 = (1 - (C : ℂ) ^ 2) ^ 3 := by rw [show (6 : ℕ) = 2 * 3 by norm_num, pow_mul, hSC']
  have g7 : (S : ℂ) ^ 7 = S * (1 - (C : ℂ) ^ 2) ^ 3 := by rw [pow_succ, g6]; ring
  field_simp
  norm_num
  first | done | ring1 | (ring_nf; simp only [Complex.I_sq, Complex.I_pow_three, Complex.I_pow_four, Ipow5, hSC', g3, g4, g5, g6, g7]; ring)

theorem seg_10 (rho t r p : ℝ) (ht : 0 < t) (hr : 0 < r) (hp0 : 0 < p) (hp2 : p < Real.pi / 2) :
    QlmACH.segCell rho t r (r * Real.cos p) 1 0 = densityInner rho (prism t (segment r (r * Real.cos p))) 1 ((0 : ℕ) : ℤ) := by
  have hSC := Real.sin_sq_add_cos_sq p
  have hE := expands_tint (r * Real.cos p) (-(r * Real.sin p)) (r * Real.sin p)
  have e1 : r * Real.cos p / r = Real.cos p := by field_simp
  have e2 : Real.arccos (Real.cos p) = p := Real.arccos_cos hp0.le (by linarith [Real.pi_pos])
  have e3 : Real.sqrt (1 - Real.cos p ^ 2) = Real.sin p := by
    rw [← Real.sin_sq, Real.sqrt_sq (Real.sin_nonneg_of_nonneg_of_le_pi hp0.le (by linarith [Real.pi_pos]))]
  rw [densityInner, prismI_10 t ht _ (segment_compact _ _ hr.le), mul_zero]
  rfl

theorem seg_11 (rho t r p : ℝ) (ht : 0 < t) (hr : 0 < r) (hp0 : 0 < p) (hp2 : p < Real.pi / 2) :
    QlmACH.segCell rho t r (r * Real.cos p) 1 1 = densityInner rho (prism t (segment r (r * Real.cos p))) 1 ((1 : ℕ) : ℤ) := by
  have hSC := Real.sin_sq_add_cos_sq p
  have hE := expands_tint (r * Real.cos p) (-(r * Real.sin p)) (r * Real.sin p)
  have e1 : r * Real.cos p / r = Real.cos p := by field_simp
  have e2 : Real.arccos (Real.cos p) = p := Real.arccos_cos hp0.le (by linarith [Real.pi_pos])
  have e3 : Real.sqrt (1 - Real.cos p ^ 2) = Real.sin p := by
    rw [← Real.sin_sq, Real.sqrt_sq (Real.sin_nonneg_of_nonneg_of_le_pi hp0.le (by linarith [Real.pi_pos]))]
  have hN : Nlm 1 ((1 : ℕ) : ℤ) = (3) / Real.sqrt (6 * Real.pi) := by
    refine Nlm_sq 1 1 _ (by norm_num) (by positivity) ?_
    have h1 := Real.pi_pos
    simp only [div_pow, mul_pow]
    rw [Real.sq_sqrt (show (0 : ℝ) ≤ 6 * Real.pi by positivity)]
    norm_num [Nat.factorial]
    try field_simp
    try norm_num
  rw [densityInner, prismI_11 t ht _ (segment_compact _ _ hr.le), pm_seg r p hr hp0 hp2 1 0, pm_sec 0 r 0 p le_rfl hr.le hp0.le (by linarith [Real.pi_pos]) 1 0 (by norm_num), pmX_10 hE, hN]
  simp only [QlmACH.segCell, QlmACH.seg11, e1, e2, e3, Nat.cast_ofNat, Nat.cast_one, one_mul, sin_2p, sin_3p, sin_4p, sin_5p]
  have hp := sqrt_pi_ne
  have hs := sqrt_cast_ne (6 * Real.pi) (by positivity)
  generalize Real.sin p = S at *
  generalize Real.cos p = C at *
  push_cast
  have hSC' : (S : ℂ) ^ 2 = 1 - (C : ℂ) ^ 2 := by rw [eq_sub_iff_add_eq]; exact_mod_cast hSC
  have g3 : (S : ℂ) ^ 3 = S * (1 - (C : ℂ) ^ 2) := by rw [pow_succ, hSC']; ring
  have g4 : (S : ℂ) ^ 4 = (1 - (C : ℂ) ^ 2) ^ 2 := by rw [show (4 : ℕ) = 2 * 2 by norm_num, pow_mul, hSC']
  have g5 : (S : ℂ) ^ 5 = S * (1 - (C : ℂ) ^ 2) ^ 2 := by rw [pow_succ, g4]; ring
  have g6 : (S : ℂ) ^ 6 = (1 - (C : ℂ) ^ 2) ^ 3 := by rw [show (6 : ℕ) = 2 * 3 by norm_num, pow_mul, hSC']
  have g7 : (S : ℂ) ^ 7 = S * (1 - (C : ℂ) ^ 2) ^ 3 := by rw [pow_succ, g6]; ring
  field_simp
  norm_num
  first | done | ring1 | (ring_nf; simp only [Complex.I_sq, Complex.I_pow_three, Complex.I_pow_four, Ipow5, hSC', g3, g4, g5, g6, g7]; ring)

theorem seg_20 (rho t r p : ℝ) (ht : 0 < t) (hr : 0 < r) (hp0 : 0 < p) (hp2 : p < Real.pi / 2) :
    QlmACH.segCell rho t r (r * Real.cos p) 2 0 = densityInner rho (prism t (segment r (r * Real.cos p))) 2 ((0 : ℕ) : ℤ) := by
  have hSC := Real.sin_sq_add_cos_sq p
  have hE := expands_tint (r * Real.cos p) (-(r * Real.sin p)) (r * Real.sin p)
  have e1 : r * Real.cos p / r = Real.cos p := by field_simp
  have e2 : Real.arccos (Real.cos p) = p := Real.arccos_cos hp0.le (by linarith [Real.pi_pos])
  have e3 : Real.sqrt (1 - Real.cos p ^ 2) = Real.sin p := by
    rw [← Real.sin_sq, Real.sqrt_sq (Real.sin_nonneg_of_nonneg_of_le_pi hp0.le (by linarith [Real.pi_pos]))]
  have hN : Nlm 2 ((0 : ℕ) : ℤ) = (1) * Real.sqrt (5 / Real.pi) := by
    refine Nlm_sq 2 0 _ (by norm_num) (by positivity) ?_
    have h1 := Real.pi_pos
    simp only [div_pow, mul_pow]
    rw [Real.sq_sqrt (show (0 : ℝ) ≤ 5 / Real.pi by positivity)]
    norm_num [Nat.factorial]
    try field_simp
    try norm_num
  rw [densityInner, prismI_20 t ht _ (segment_compact _ _ hr.le), pm_seg r p hr hp0 hp2 0 0, pm_sec0 0 r 0 p le_rfl hr.le hp0.le (by linarith [Real.pi_pos])  0, pmX_00 hE, pm_seg r p hr hp0 hp2 0 1, pm_sec0 0 r 0 p le_rfl hr.le hp0.le (by linarith [Real.pi_pos])  1, pmX_01 hE, hN]
  simp only [QlmACH.segCell, QlmACH.seg20, e1, e2, e3, Nat.cast_ofNat, Nat.cast_one, one_mul, sin_2p, sin_3p, sin_4p, sin_5p]
  have hp := sqrt_pi_ne
  have hs := sqrt_cast_ne (5 / Real.pi) (by positivity)
  generalize Real.sin p = S at *
  generalize Real.cos p = C at *
  push_cast
  have hSC' : (S : ℂ) ^ 2 = 1 - (C : ℂ) ^ 2 := by rw [eq_sub_iff_add_eq]; exact_mod_cast hSC
  have g3 : (S : ℂ) ^ 3 = S * (1 - (C : ℂ) ^ 2) := by rw [pow_succ, hSC']; ring
  have g4 : (S : ℂ) ^ 4 = (1 - (C : ℂ) ^ 2) ^ 2 := by rw [show (4 : ℕ) = 2 * 2 by norm_num, pow_mul, hSC']
  have g5 : (S : ℂ) ^ 5 = S * (1 - (C : ℂ) ^ 2) ^ 2 := by rw [pow_succ, g4]; ring
  have g6 : (S : ℂ) ^ 6 = (1 - (C : ℂ) ^ 2) ^ 3 := by rw [show (6 : ℕ) = 2 * 3 by norm_num, pow_mul, hSC']
  have g7 : (S : ℂ) ^ 7 = S * (1 - (C : ℂ) ^ 2) ^ 3 := by rw [pow_succ, g6]; ring
  field_simp
  norm_num
  first | done | ring1 | (ring_nf; simp only [Complex.I_sq, Complex.I_pow_three, Complex.I_pow_four, Ipow5, hSC', g3, g4, g5, g6, g7]; ring)

theorem seg_21 (rho t r p : ℝ) (ht : 0 < t) (hr : 0 < r) (hp0 : 0 < p) (hp2 : p < Real.pi / 2) :
    QlmACH.segCell rho t r (r * Real.cos p) 2 1 = densityInner rho (prism t (segment r (r * Real.cos p))) 2 ((1 : ℕ) : ℤ) := by
  have hSC := Real.sin_sq_add_cos_sq p
  have hE := expands_tint (r * Real.cos p) (-(r * Real.sin p)) (r * Real.sin p)
  have e1 : r * Real.cos p / r = Real.cos p := by field_simp
  have e2 : Real.arccos (Real.cos p) = p := Real.arccos_cos hp0.le (by linarith [Real.pi_pos])
  have e3 : Real.sqrt (1 - Real.cos p ^ 2) = Real.sin p := by
    rw [← Real.sin_sq, Real.sqrt_sq (Real.sin_nonneg_of_nonneg_of_le_pi hp0.le (by linarith [Real.pi_pos]))]
  rw [densityInner, prismI_21 t ht _ (segment_compact _ _ hr.le), mul_zero]
  rfl

theorem seg_22 (rho t r p : ℝ) (ht : 0 < t) (hr : 0 < r) (hp0 : 0 < p) (hp2 : p < Real.pi / 2) :
    QlmACH.segCell rho t r (r * Real.cos p) 2 2 = densityInner rho (prism t (segment r (r * Real.cos p))) 2 ((2 : ℕ) : ℤ) := by
  have hSC := Real.sin_sq_add_cos_sq p
  have hE := expands_tint (r * Real.cos p) (-(r * Real.sin p)) (r * Real.sin p)
  have e1 : r * Real.cos p / r = Real.cos p := by field_simp
  have e2 : Real.arccos (Real.cos p) = p := Real.arccos_cos hp0.le (by linarith [Real.pi_pos])
  have e3 : Real.sqrt (1 - Real.cos p ^ 2) = Real.sin p := by
    rw [← Real.sin_sq, Real.sqrt_sq (Real.sin_nonneg_of_nonneg_of_le_pi hp0.le (by linarith [Real.pi_pos]))]
  have hN : Nlm 2 ((2 : ℕ) : ℤ) = (6) * Real.sqrt (5 / 6 / Real.pi) := by
    refine Nlm_sq 2 2 _ (by norm_num) (by positivity) ?_
    have h1 := Real.pi_pos
    simp only [div_pow, mul_pow]
    rw [Real.sq_sqrt (show (0 : ℝ) ≤ 5 / 6 / Real.pi by positivity)]
    norm_num [Nat.factorial]
    try field_simp
    try norm_num
  rw [densityInner, prismI_22 t ht _ (segment_compact _ _ hr.le), pm_seg r p hr hp0 hp2 2 0, pm_sec 0 r 0 p le_rfl hr.le hp0.le (by linarith [Real.pi_pos]) 2 0 (by norm_num), pmX_20 hE, hN]
  simp only [QlmACH.segCell, QlmACH.seg22, e1, e2, e3, Nat.cast_ofNat, Nat.cast_one, one_mul, sin_2p, sin_3p, sin_4p, sin_5p]
  have hp := sqrt_pi_ne
  have hs := sqrt_cast_ne (5 / 6 / Real.pi) (by positivity)
  generalize Real.sin p = S at *
  generalize Real.cos p = C at *
  push_cast
  have hSC' : (S : ℂ) ^ 2 = 1 - (C : ℂ) ^ 2 := by rw [eq_sub_iff_add_eq]; exact_mod_cast hSC
  have g3 : (S : ℂ) ^ 3 = S * (1 - (C : ℂ) ^ 2) := by rw [pow_succ, hSC']; ring
  have g4 : (S : ℂ) ^ 4 = (1 - (C : ℂ) ^ 2) ^ 2 := by rw [show (4 : ℕ) = 2 * 2 by norm_num, pow_mul, hSC']
  have g5 : (S : ℂ) ^ 5 = S * (1 - (C : ℂ) ^ 2) ^ 2 := by rw [pow_succ, g4]; ring
  have g6 : (S : ℂ) ^ 6 = (1 - (C : ℂ) ^ 2) ^ 3 := by rw [show (6 : ℕ) = 2 * 3 by norm_num, pow_mul, hSC']
  have g7 : (S : ℂ) ^ 7 = S * (1 - (C : ℂ) ^ 2) ^ 3 := by rw [pow_succ, g6]; ring
  field_simp
  norm_num
  first | done | ring1 | (ring_nf; simp only [Complex.I_sq, Complex.I_pow_three, Complex.I_pow_four, Ipow5, hSC', g3, g4, g5, g6, g7]; ring)

theorem seg_30 (rho t r p : ℝ) (ht : 0 < t) (hr : 0 < r) (hp0 : 0 < p) (hp2 : p < Real.pi / 2) :
    QlmACH.segCell rho t r (r * Real.cos p) 3 0 = densityInner rho (prism t (segment r (r * Real.cos p))) 3 ((0 : ℕ) : ℤ) := by
  have hSC := Real.sin_sq_add_cos_sq p
  have hE := expands_tint (r * Real.cos p) (-(r * Real.sin p)) (r * Real.sin p)
  have e1 : r * Real.cos p / r = Real.cos p := by field_simp
  have e2 : Real.arccos (Real.cos p) = p := Real.arccos_cos hp0.le (by linarith [Real.pi_pos])
  have e3 : Real.sqrt (1 - Real.cos p ^ 2) = Real.sin p := by
    rw [← Real.sin_sq, Real.sqrt_sq (Real.sin_nonneg_of_nonneg_of_le_pi hp0.le (by linarith [Real.pi_pos]))]
  rw [densityInner, prismI_30 t ht _ (segment_compact _ _ hr.le), mul_zero]
  rfl

theorem seg_31 (rho t r p : ℝ) (ht : 0 < t) (hr : 0 < r) (hp0 : 0 < p) (hp2 : p < Real.pi / 2) :
    QlmACH.segCell rho t r (r * Real.cos p) 3 1 = densityInner rho (prism t (segment r (r * Real.cos p))) 3 ((1 : ℕ) : ℤ) := by
  have hSC := Real.sin_sq_add_cos_sq p
  have hE := expands_tint (r * Real.cos p) (-(r * Real.sin p)) (r * Real.sin p)
  have e1 : r * Real.cos p / r = Real.cos p := by field_simp
  have e2 : Real.arccos (Real.cos p) = p := Real.arccos_cos hp0.le (by linarith [Real.pi_pos])
  have e3 : Real.sqrt (1 - Real.cos p ^ 2) = Real.sin p := by
    rw [← Real.sin_sq, Real.sqrt_sq (Real.sin_nonneg_of_nonneg_of_le_pi hp0.le (by linarith [Real.pi_pos]))]
  have hN : Nlm 3 ((1 : ℕ) : ℤ) = (6) * Real.sqrt (7 / 3 / Real.pi) := by
    refine Nlm_sq 3 1 _ (by norm_num) (by positivity) ?_
    have h1 := Real.pi_pos
    simp only [div_pow, mul_pow]
    rw [Real.sq_sqrt (show (0 : ℝ) ≤ 7 / 3 / Real.pi by positivity)]
    norm_num [Nat.factorial]
    try field_simp
    try norm_num
  rw [densityInner, prismI_31 t ht _ (segment_compact _ _ hr.le), pm_seg r p hr hp0 hp2 1 0, pm_sec 0 r 0 p le_rfl hr.le hp0.le (by linarith [Real.pi_pos]) 1 0 (by norm_num), pmX_10 hE, pm_seg r p hr hp0 hp2 1 1, pm_sec 0 r 0 p le_rfl hr.le hp0.le (by linarith [Real.pi_pos]) 1 1 (by norm_num), pmX_11 hE, hN]
  simp only [QlmACH.segCell, QlmACH.seg31, e1, e2, e3, Nat.cast_ofNat, Nat.cast_one, one_mul, sin_2p, sin_3p, sin_4p, sin_5p]
  have hp := sqrt_pi_ne
  have hs := sqrt_cast_ne (7 / 3 / Real.pi) (by positivity)
  generalize Real.sin p = S at *
  generalize Real.cos p = C at *
  push_cast
  have hSC' : (S : ℂ) ^ 2 = 1 - (C : ℂ) ^ 2 := by rw [eq_sub_iff_add_eq]; exact_mod_cast hSC
  have g3 : (S : ℂ) ^ 3 = S * (1 - (C : ℂ) ^ 2) := by rw [pow_succ, hSC']; ring
  have g4 : (S : ℂ) ^ 4 = (1 - (C : ℂ) ^ 2) ^ 2 := by rw [show (4 : ℕ) = 2 * 2 by norm_num, pow_mul, hSC']
  have g5 : (S : ℂ) ^ 5 = S * (1 - (C : ℂ) ^ 2) ^ 2 := by rw [pow_succ, g4]; ring
  have g6 : (S : ℂ) ^ 6 = (1 - (C : ℂ) ^ 2) ^ 3 := by rw [show (6 : ℕ) = 2 * 3 by norm_num, pow_mul, hSC']
  have g7 : (S : ℂ) ^ 7 = S * (1 - (C : ℂ) ^ 2) ^ 3 := by rw [pow_succ, g6]; ring
  field_simp
  norm_num
  first | done | ring1 | (ring_nf; simp only [Complex.I_sq, Complex.I_pow_three, Complex.I_pow_four, Ipow5, hSC', g3, g4, g5, g6, g7]; ring)

theorem seg_32 (rho t r p : ℝ) (ht : 0 < t) (hr : 0 < r) (hp0 : 0 < p) (hp2 : p < Real.pi / 2) :
    QlmACH.segCell rho t r (r * Real.cos p) 3 2 = densityInner rho (prism t (segment r (r * Real.cos p))) 3 ((2 : ℕ) : ℤ) := by
  have hSC := Real.sin_sq_add_cos_sq p
  have hE := expands_tint (r * Real.cos p) (-(r * Real.sin p)) (r * Real.sin p)
  have e1 : r * Real.cos p / r = Real.cos p := by field_simp
  have e2 : Real.arccos (Real.cos p) = p := Real.arccos_cos hp0.le (by linarith [Real.pi_pos])
  have e3 : Real.sqrt (1 - Real.cos p ^ 2) = Real.sin p := by
    rw [← Real.sin_sq, Real.sqrt_sq (Real.sin_nonneg_of_nonneg_of_le_pi hp0.le (by linarith [Real.pi_pos]))]
  rw [densityInner, prismI_32 t ht _ (segment_compact _ _ hr.le), mul_zero]
  rfl

theorem seg_33 (rho t r p : ℝ) (ht : 0 < t) (hr : 0 < r) (hp0 : 0 < p) (hp2 : p < Real.pi / 2) :
    QlmACH.segCell rho t r (r * Real.cos p) 3 3 = densityInner rho (prism t (segment r (r * Real.cos p))) 3 ((3 : ℕ) : ℤ) := by
  have hSC := Real.sin_sq_add_cos_sq p
  have hE := expands_tint (r * Real.cos p) (-(r * Real.sin p)) (r * Real.sin p)
  have e1 : r * Real.cos p / r = Real.cos p := by field_simp
  have e2 : Real.arccos (Real.cos p) = p := Real.arccos_cos hp0.le (by linarith [Real.pi_pos])
  have e3 : Real.sqrt (1 - Real.cos p ^ 2) = Real.sin p := by
    rw [← Real.sin_sq, Real.sqrt_sq (Real.sin_nonneg_of_nonneg_of_le_pi hp0.le (by linarith [Real.pi_pos]))]
  have hN : Nlm 3 ((3 : ℕ) : ℤ) = (30) * Real.sqrt (7 / 5 / Real.pi) := by
    refine Nlm_sq 3 3 _ (by norm_num) (by positivity) ?_
    have h1 := Real.pi_pos
    simp only [div_pow, mul_pow]
    rw [Real.sq_sqrt (show (0 : ℝ) ≤ 7 / 5 / Real.pi by positivity)]
    norm_num [Nat.factorial]
    try field_simp
    try norm_num
  rw [densityInner, prismI_33 t ht _ (segment_compact _ _ hr.le), pm_seg r p hr hp0 hp2 3 0, pm_sec 0 r 0 p le_rfl hr.le hp0.le (by linarith [Real.pi_pos]) 3 0 (by norm_num), pmX_30 hE, hN]
  simp only [QlmACH.segCell, QlmACH.seg33, e1, e2, e3, Nat.cast_ofNat, Nat.cast_one, one_mul, sin_2p, sin_3p, sin_4p, sin_5p]
  have hp := sqrt_pi_ne
  have hs := sqrt_cast_ne (7 / 5 / Real.pi) (by positivity)
  generalize Real.sin p = S at *
  generalize Real.cos p = C at *
  push_cast
  have hSC' : (S : ℂ) ^ 2 = 1 - (C : ℂ) ^ 2 := by rw [eq_sub_iff_add_eq]; exact_mod_cast hSC
  have g3 : (S : ℂ) ^ 3 = S * (1 - (C : ℂ) ^ 2) := by rw [pow_succ, hSC']; ring
  have g4 : (S : ℂ) ^ 4 = (1 - (C : ℂ) ^ 2) ^ 2 := by rw [show (4 : ℕ) = 2 * 2 by norm_num, pow_mul, hSC']
  have g5 : (S : ℂ) ^ 5 = S * (1 - (C : ℂ) ^ 2) ^ 2 := by rw [pow_succ, g4]; ring
  have g6 : (S : ℂ) ^ 6 = (1 - (C : ℂ) ^ 2) ^ 3 := by rw [show (6 : ℕ) = 2 * 3 by norm_num, pow_mul, hSC']
  have g7 : (S : ℂ) ^ 7 = S * (1 - (C : ℂ) ^ 2) ^ 3 := by rw [pow_succ, g6]; ring
  field_simp
  norm_num
  first | done | ring1 | (ring_nf; simp only [Complex.I_sq, Complex.I_pow_three, Complex.I_pow_four, Ipow5, hSC', g3, g4, g5, g6, g7]; ring)

theorem seg_40 (rho t r p : ℝ) (ht : 0 < t) (hr : 0 < r) (hp0 : 0 < p) (hp2 : p < Real.pi / 2) :
    QlmACH.segCell rho t r (r * Real.cos p) 4 0 = densityInner rho (prism t (segment r (r * Real.cos p))) 4 ((0 : ℕ) : ℤ) := by
  have hSC := Real.sin_sq_add_cos_sq p
  have hE := expands_tint (r * Real.cos p) (-(r * Real.sin p)) (r * Real.sin p)
  have e1 : r * Real.cos p / r = Real.cos p := by field_simp
  have e2 : Real.arccos (Real.cos p) = p := Real.arccos_cos hp0.le (by linarith [Real.pi_pos])
  have e3 : Real.sqrt (1 - Real.cos p ^ 2) = Real.sin p := by
    rw [← Real.sin_sq, Real.sqrt_sq (Real.sin_nonneg_of_nonneg_of_le_pi hp0.le (by linarith [Real.pi_pos]))]
  have hN : Nlm 4 ((0 : ℕ) : ℤ) = (36) / Real.sqrt (Real.pi) := by
    refine Nlm_sq 4 0 _ (by norm_num) (by positivity) ?_
    have h1 := Real.pi_pos
    simp only [div_pow, mul_pow]
    rw [Real.sq_sqrt (show (0 : ℝ) ≤ Real.pi by positivity)]
    norm_num [Nat.factorial]
    try field_simp
    try norm_num
  rw [densityInner, prismI_40 t ht _ (segment_compact _ _ hr.le), pm_seg r p hr hp0 hp2 0 0, pm_sec0 0 r 0 p le_rfl hr.le hp0.le (by linarith [Real.pi_pos])  0, pmX_00 hE, pm_seg r p hr hp0 hp2 0 1, pm_sec0 0 r 0 p le_rfl hr.le hp0.le (by linarith [Real.pi_pos])  1, pmX_01 hE, pm_seg r p hr hp0 hp2 0 2, pm_sec0 0 r 0 p le_rfl hr.le hp0.le (by linarith [Real.pi_pos])  2, pmX_02 hE, hN]
  simp only [QlmACH.segCell, QlmACH.seg40, e1, e2, e3, Nat.cast_ofNat, Nat.cast_one, one_mul, sin_2p, sin_3p, sin_4p, sin_5p]
  have hp := sqrt_pi_ne
  generalize Real.sin p = S at *
  generalize Real.cos p = C at *
  push_cast
  have hSC' : (S : ℂ) ^ 2 = 1 - (C : ℂ) ^ 2 := by rw [eq_sub_iff_add_eq]; exact_mod_cast hSC
  have g3 : (S : ℂ) ^ 3 = S * (1 - (C : ℂ) ^ 2) := by rw [pow_succ, hSC']; ring
  have g4 : (S : ℂ) ^ 4 = (1 - (C : ℂ) ^ 2) ^ 2 := by rw [show (4 : ℕ) = 2 * 2 by norm_num, pow_mul, hSC']
  have g5 : (S : ℂ) ^ 5 = S * (1 - (C : ℂ) ^ 2) ^ 2 := by rw [pow_succ, g4]; ring
  have g6 : (S : ℂ) ^ 6 = (1 - (C : ℂ) ^ 2) ^ 3 := by rw [show (6 : ℕ) = 2 * 3 by norm_num, pow_mul, hSC']
  have g7 : (S : ℂ) ^ 7 = S * (1 - (C : ℂ) ^ 2) ^ 3 := by rw [pow_succ, g6]; ring
  field_simp
  norm_num
  first | done | ring1 | (ring_nf; simp only [Complex.I_sq, Complex.I_pow_three, Complex.I_pow_four, Ipow5, hSC', g3, g4, g5, g6, g7]; ring)

theorem seg_41 (rho t r p : ℝ) (ht : 0 < t) (hr : 0 < r) (hp0 : 0 < p) (hp2 : p < Real.pi / 2) :
    QlmACH.segCell rho t r (r * Real.cos p) 4 1 = densityInner rho (prism t (segment r (r * Real.cos p))) 4 ((1 : ℕ) : ℤ) := by
  have hSC := Real.sin_sq_add_cos_sq p
  have hE := expands_tint (r * Real.cos p) (-(r * Real.sin p)) (r * Real.sin p)
  have e1 : r * Real.cos p / r = Real.cos p := by field_simp
  have e2 : Real.arccos (Real.cos p) = p := Real.arccos_cos hp0.le (by linarith [Real.pi_pos])
  have e3 : Real.sqrt (1 - Real.cos p ^ 2) = Real.sin p := by
    rw [← Real.sin_sq, Real.sqrt_sq (Real.sin_nonneg_of_nonneg_of_le_pi hp0.le (by linarith [Real.pi_pos]))]
  rw [densityInner, prismI_41 t ht _ (segment_compact _ _ hr.le), mul_zero]
  rfl

theorem seg_42 (rho t r p : ℝ) (ht : 0 < t) (hr : 0 < r) (hp0 : 0 < p) (hp2 : p < Real.pi / 2) :
    QlmACH.segCell rho t r (r * Real.cos p) 4 2 = densityInner rho (prism t (segment r (r * Real.cos p))) 4 ((2 : ℕ) : ℤ) := by
  have hSC := Real.sin_sq_add_cos_sq p
  have hE := expands_tint (r * Real.cos p) (-(r * Real.sin p)) (r * Real.sin p)
  have e1 : r * Real.cos p / r = Real.cos p := by field_simp
  have e2 : Real.arccos (Real.cos p) = p := Real.arccos_cos hp0.le (by linarith [Real.pi_pos])
  have e3 : Real.sqrt (1 - Real.cos p ^ 2) = Real.sin p := by
    rw [← Real.sin_sq, Real.sqrt_sq (Real.sin_nonneg_of_nonneg_of_le_pi hp0.le (by linarith [Real.pi_pos]))]
  have hN : Nlm 4 ((2 : ℕ) : ℤ) = (180) / Real.sqrt (10 * Real.pi) := by
    refine Nlm_sq 4 2 _ (by norm_num) (by positivity) ?_
    have h1 := Real.pi_pos
    simp only [div_pow, mul_pow]
    rw [Real.sq_sqrt (show (0 : ℝ) ≤ 10 * Real.pi by positivity)]
    norm_num [Nat.factorial]
    try field_simp
    try norm_num
  rw [densityInner, prismI_42 t ht _ (segment_compact _ _ hr.le), pm_seg r p hr hp0 hp2 2 0, pm_sec 0 r 0 p le_rfl hr.le hp0.le (by linarith [Real.pi_pos]) 2 0 (by norm_num), pmX_20 hE, pm_seg r p hr hp0 hp2 2 1, pm_sec 0 r 0 p le_rfl hr.le hp0.le (by linarith [Real.pi_pos]) 2 1 (by norm_num), pmX_21 hE, hN]
  simp only [QlmACH.segCell, QlmACH.seg42, e1, e2, e3, Nat.cast_ofNat, Nat.cast_one, one_mul, sin_2p, sin_3p, sin_4p, sin_5p]
  have hp := sqrt_pi_ne
  have hs := sqrt_cast_ne (10 * Real.pi) (by positivity)
  generalize Real.sin p = S at *
  generalize Real.cos p = C at *
  push_cast
  have hSC' : (S : ℂ) ^ 2 = 1 - (C : ℂ) ^ 2 := by rw [eq_sub_iff_add_eq]; exact_mod_cast hSC
  have g3 : (S : ℂ) ^ 3 = S * (1 - (C : ℂ) ^ 2) := by rw [pow_succ, hSC']; ring
  have g4 : (S : ℂ) ^ 4 = (1 - (C : ℂ) ^ 2) ^ 2 := by rw [show (4 : ℕ) = 2 * 2 by norm_num, pow_mul, hSC']
  have g5 : (S : ℂ) ^ 5 = S * (1 - (C : ℂ) ^ 2) ^ 2 := by rw [pow_succ, g4]; ring
  have g6 : (S : ℂ) ^ 6 = (1 - (C : ℂ) ^ 2) ^ 3 := by rw [show (6 : ℕ) = 2 * 3 by norm_num, pow_mul, hSC']
  have g7 : (S : ℂ) ^ 7 = S * (1 - (C : ℂ) ^ 2) ^ 3 := by rw [pow_succ, g6]; ring
  field_simp
  norm_num
  first | done | ring1 | (ring_nf; simp only [Complex.I_sq, Complex.I_pow_three, Complex.I_pow_four, Ipow5, hSC', g3, g4, g5, g6, g7]; ring)

theorem seg_43 (rho t r p : ℝ) (ht : 0 < t) (hr : 0 < r) (hp0 : 0 < p) (hp2 : p < Real.pi / 2) :
    QlmACH.segCell rho t r (r * Real.cos p) 4 3 = densityInner rho (prism t (segment r (r * Real.cos p))) 4 ((3 : ℕ) : ℤ) := by
  have hSC := Real.sin_sq_add_cos_sq p
  have hE := expands_tint (r * Real.cos p) (-(r * Real.sin p)) (r * Real.sin p)
  have e1 : r * Real.cos p / r = Real.cos p := by field_simp
  have e2 : Real.arccos (Real.cos p) = p := Real.arccos_cos hp0.le (by linarith [Real.pi_pos])
  have e3 : Real.sqrt (1 - Real.cos p ^ 2) = Real.sin p := by
    rw [← Real.sin_sq, Real.sqrt_sq (Real.sin_nonneg_of_nonneg_of_le_pi hp0.le (by linarith [Real.pi_pos]))]
  rw [densityInner, prismI_43 t ht _ (segment_compact _ _ hr.le), mul_zero]
  rfl

theorem seg_44 (rho t r p : ℝ) (ht : 0 < t) (hr : 0 < r) (hp0 : 0 < p) (hp2 : p < Real.pi / 2) :
    QlmACH.segCell rho t r (r * Real.cos p) 4 4 = densityInner rho (prism t (segment r (r * Real.cos p))) 4 ((4 : ℕ) : ℤ) := by
  have hSC := Real.sin_sq_add_cos_sq p
  have hE := expands_tint (r * Real.cos p) (-(r * Real.sin p)) (r * Real.sin p)
  have e1 : r * Real.cos p / r = Real.cos p := by field_simp
  have e2 : Real.arccos (Real.cos p) = p := Real.arccos_cos hp0.le (by linarith [Real.pi_pos])
  have e3 : Real.sqrt (1 - Real.cos p ^ 2) = Real.sin p := by
    rw [← Real.sin_sq, Real.sqrt_sq (Real.sin_nonneg_of_nonneg_of_le_pi hp0.le (by linarith [Real.pi_pos]))]
  have hN : Nlm 4 ((4 : ℕ) : ℤ) = (360) * Real.sqrt (7 / (10 * Real.pi)) := by
    refine Nlm_sq 4 4 _ (by norm_num) (by positivity) ?_
    have h1 := Real.pi_pos
    simp only [div_pow, mul_pow]
    rw [Real.sq_sqrt (show (0 : ℝ) ≤ 7 / (10 * Real.pi) by positivity)]
    norm_num [Nat.factorial]
    try field_simp
    try norm_num
  rw [densityInner, prismI_44 t ht _ (segment_compact _ _ hr.le), pm_seg r p hr hp0 hp2 4 0, pm_sec 0 r 0 p le_rfl hr.le hp0.le (by linarith [Real.pi_pos]) 4 0 (by norm_num), pmX_40 hE, hN]
  simp only [QlmACH.segCell, QlmACH.seg44, e1, e2, e3, Nat.cast_ofNat, Nat.cast_one, one_mul, sin_2p, sin_3p, sin_4p, sin_5p]
  have hp := sqrt_pi_ne
  have hs := sqrt_cast_ne (7 / (10 * Real.pi)) (by positivity)
  generalize Real.sin p = S at *
  generalize Real.cos p = C at *
  push_cast
  have hSC' : (S : ℂ) ^ 2 = 1 - (C : ℂ) ^ 2 := by rw [eq_sub_iff_add_eq]; exact_mod_cast hSC
  have g3 : (S : ℂ) ^ 3 = S * (1 - (C : ℂ) ^ 2) := by rw [pow_succ, hSC']; ring
  have g4 : (S : ℂ) ^ 4 = (1 - (C : ℂ) ^ 2) ^ 2 := by rw [show (4 : ℕ) = 2 * 2 by norm_num, pow_mul, hSC']
  have g5 : (S : ℂ) ^ 5 = S * (1 - (C : ℂ) ^ 2) ^ 2 := by rw [pow_succ, g4]; ring
  have g6 : (S : ℂ) ^ 6 = (1 - (C : ℂ) ^ 2) ^ 3 := by rw [show (6 : ℕ) = 2 * 3 by norm_num, pow_mul, hSC']
  have g7 : (S : ℂ) ^ 7 = S * (1 - (C : ℂ) ^ 2) ^ 3 := by rw [pow_succ, g6]; ring
  field_simp
  norm_num
  first | done | ring1 | (ring_nf; simp only [Complex.I_sq, Complex.I_pow_three, Complex.I_pow_four, Ipow5, hSC', g3, g4, g5, g6, g7]; ring)

theorem seg_50 (rho t r p : ℝ) (ht : 0 < t) (hr : 0 < r) (hp0 : 0 < p) (hp2 : p < Real.pi / 2) :
    QlmACH.segCell rho t r (r * Real.cos p) 5 0 = densityInner rho (prism t (segment r (r * Real.cos p))) 5 ((0 : ℕ) : ℤ) := by
  have hSC := Real.sin_sq_add_cos_sq p
  have hE := expands_tint (r * Real.cos p) (-(r * Real.sin p)) (r * Real.sin p)
  have e1 : r * Real.cos p / r = Real.cos p := by field_simp
  have e2 : Real.arccos (Real.cos p) = p := Real.arccos_cos hp0.le (by linarith [Real.pi_pos])
  have e3 : Real.sqrt (1 - Real.cos p ^ 2) = Real.sin p := by
    rw [← Real.sin_sq, Real.sqrt_sq (Real.sin_nonneg_of_nonneg_of_le_pi hp0.le (by linarith [Real.pi_pos]))]
  rw [densityInner, prismI_50 t ht _ (segment_compact _ _ hr.le), mul_zero]
  rfl

theorem seg_51 (rho t r p : ℝ) (ht : 0 < t) (hr : 0 < r) (hp0 : 0 < p) (hp2 : p < Real.pi / 2) :
    QlmACH.segCell rho t r (r * Real.cos p) 5 1 = densityInner rho (prism t (segment r (r * Real.cos p))) 5 ((1 : ℕ) : ℤ) := by
  have hSC := Real.sin_sq_add_cos_sq p
  have hE := expands_tint (r * Real.cos p) (-(r * Real.sin p)) (r * Real.sin p)
  have e1 : r * Real.cos p / r = Real.cos p := by field_simp
  have e2 : Real.arccos (Real.cos p) = p := Real.arccos_cos hp0.le (by linarith [Real.pi_pos])
  have e3 : Real.sqrt (1 - Real.cos p ^ 2) = Real.sin p := by
    rw [← Real.sin_sq, Real.sqrt_sq (Real.sin_nonneg_of_nonneg_of_le_pi hp0.le (by linarith [Real.pi_pos]))]
  have hN : Nlm 5 ((1 : ℕ) : ℤ) = (360) * Real.sqrt (11 / (30 * Real.pi)) := by
    refine Nlm_sq 5 1 _ (by norm_num) (by positivity) ?_
    have h1 := Real.pi_pos
    simp only [div_pow, mul_pow]
    rw [Real.sq_sqrt (show (0 : ℝ) ≤ 11 / (30 * Real.pi) by positivity)]
    norm_num [Nat.factorial]
    try field_simp
    try norm_num
  rw [densityInner, prismI_51 t ht _ (segment_compact _ _ hr.le), pm_seg r p hr hp0 hp2 1 0, pm_sec 0 r 0 p le_rfl hr.le hp0.le (by linarith [Real.pi_pos]) 1 0 (by norm_num), pmX_10 hE, pm_seg r p hr hp0 hp2 1 1, pm_sec 0 r 0 p le_rfl hr.le hp0.le (by linarith [Real.pi_pos]) 1 1 (by norm_num), pmX_11 hE, pm_seg r p hr hp0 hp2 1 2, pm_sec 0 r 0 p le_rfl hr.le hp0.le (by linarith [Real.pi_pos]) 1 2 (by norm_num), pmX_12 hE, hN]
  simp only [QlmACH.segCell, QlmACH.seg51, e1, e2, e3, Nat.cast_ofNat, Nat.cast_one, one_mul, sin_2p, sin_3p, sin_4p, sin_5p]
  have hp := sqrt_pi_ne
  have hs := sqrt_cast_ne (11 / (30 * Real.pi)) (by positivity)
  generalize Real.sin p = S at *
  generalize Real.cos p = C at *
  push_cast
  have hSC' : (S : ℂ) ^ 2 = 1 - (C : ℂ) ^ 2 := by rw [eq_sub_iff_add_eq]; exact_mod_cast hSC
  have g3 : (S : ℂ) ^ 3 = S * (1 - (C : ℂ) ^ 2) := by rw [pow_succ, hSC']; ring
  have g4 : (S : ℂ) ^ 4 = (1 - (C : ℂ) ^ 2) ^ 2 := by rw [show (4 : ℕ) = 2 * 2 by norm_num, pow_mul, hSC']
  have g5 : (S : ℂ) ^ 5 = S * (1 - (C : ℂ) ^ 2) ^ 2 := by rw [pow_succ, g4]; ring
  have g6 : (S : ℂ) ^ 6 = (1 - (C : ℂ) ^ 2) ^ 3 := by rw [show (6 : ℕ) = 2 * 3 by norm_num, pow_mul, hSC']
  have g7 : (S : ℂ) ^ 7 = S * (1 - (C : ℂ) ^ 2) ^ 3 := by rw [pow_succ, g6]; ring
  field_simp
  norm_num
  first | done | ring1 | (ring_nf; simp only [Complex.I_sq, Complex.I_pow_three, Complex.I_pow_four, Ipow5, hSC', g3, g4, g5, g6, g7]; ring)

theorem seg_52 (rho t r p : ℝ) (ht : 0 < t) (hr : 0 < r) (hp0 : 0 < p) (hp2 : p < Real.pi / 2) :
    QlmACH.segCell rho t r (r * Real.cos p) 5 2 = densityInner rho (prism t (segment r (r * Real.cos p))) 5 ((2 : ℕ) : ℤ) := by
  have hSC := Real.sin_sq_add_cos_sq p
  have hE := expands_tint (r * Real.cos p) (-(r * Real.sin p)) (r * Real.sin p)
  have e1 : r * Real.cos p / r = Real.cos p := by field_simp
  have e2 : Real.arccos (Real.cos p) = p := Real.arccos_cos hp0.le (by linarith [Real.pi_pos])
  have e3 : Real.sqrt (1 - Real.cos p ^ 2) = Real.sin p := by
    rw [← Real.sin_sq, Real.sqrt_sq (Real.sin_nonneg_of_nonneg_of_le_pi hp0.le (by linarith [Real.pi_pos]))]
  rw [densityInner, prismI_52 t ht _ (segment_compact _ _ hr.le), mul_zero]
  rfl

theorem seg_53 (rho t r p : ℝ) (ht : 0 < t) (hr : 0 < r) (hp0 : 0 < p) (hp2 : p < Real.pi / 2) :
    QlmACH.segCell rho t r (r * Real.cos p) 5 3 = densityInner rho (prism t (segment r (r * Real.cos p))) 5 ((3 : ℕ) : ℤ) := by
  have hSC := Real.sin_sq_add_cos_sq p
  have hE := expands_tint (r * Real.cos p) (-(r * Real.sin p)) (r * Real.sin p)
  have e1 : r * Real.cos p / r = Real.cos p := by field_simp
  have e2 : Real.arccos (Real.cos p) = p := Real.arccos_cos hp0.le (by linarith [Real.pi_pos])
  have e3 : Real.sqrt (1 - Real.cos p ^ 2) = Real.sin p := by
    rw [← Real.sin_sq, Real.sqrt_sq (Real.sin_nonneg_of_nonneg_of_le_pi hp0.le (by linarith [Real.pi_pos]))]
  have hN : Nlm 5 ((3 : ℕ) : ℤ) = (840) * Real.sqrt (11 / (35 * Real.pi)) := by
    refine Nlm_sq 5 3 _ (by norm_num) (by positivity) ?_
    have h1 := Real.pi_pos
    simp only [div_pow, mul_pow]
    rw [Real.sq_sqrt (show (0 : ℝ) ≤ 11 / (35 * Real.pi) by positivity)]
    norm_num [Nat.factorial]
    try field_simp
    try norm_num
  rw [densityInner, prismI_53 t ht _ (segment_compact _ _ hr.le), pm_seg r p hr hp0 hp2 3 0, pm_sec 0 r 0 p le_rfl hr.le hp0.le (by linarith [Real.pi_pos]) 3 0 (by norm_num), pmX_30 hE, pm_seg r p hr hp0 hp2 3 1, pm_sec 0 r 0 p le_rfl hr.le hp0.le (by linarith [Real.pi_pos]) 3 1 (by norm_num), pmX_31 hE, hN]
  simp only [QlmACH.segCell, QlmACH.seg53, e1, e2, e3, Nat.cast_ofNat, Nat.cast_one, one_mul, sin_2p, sin_3p, sin_4p, sin_5p]
  have hp := sqrt_pi_ne
  have hs := sqrt_cast_ne (11 / (35 * Real.pi)) (by positivity)
  generalize Real.sin p = S at *
  generalize Real.cos p = C at *
  push_cast
  have hSC' : (S : ℂ) ^ 2 = 1 - (C : ℂ) ^ 2 := by rw [eq_sub_iff_add_eq]; exact_mod_cast hSC
  have g3 : (S : ℂ) ^ 3 = S * (1 - (C : ℂ) ^ 2) := by rw [pow_succ, hSC']; ring
  have g4 : (S : ℂ) ^ 4 = (1 - (C : ℂ) ^ 2) ^ 2 := by rw [show (4 : ℕ) = 2 * 2 by norm_num, pow_mul, hSC']
  have g5 : (S : ℂ) ^ 5 = S * (1 - (C : ℂ) ^ 2) ^ 2 := by rw [pow_succ, g4]; ring
  have g6 : (S : ℂ) ^ 6 = (1 - (C : ℂ) ^ 2) ^ 3 := by rw [show (6 : ℕ) = 2 * 3 by norm_num, pow_mul, hSC']
  have g7 : (S : ℂ) ^ 7 = S * (1 - (C : ℂ) ^ 2) ^ 3 := by rw [pow_succ, g6]; ring
  field_simp
  norm_num
  first | done | ring1 | (ring_nf; simp only [Complex.I_sq, Complex.I_pow_three, Complex.I_pow_four, Ipow5, hSC', g3, g4, g5, g6, g7]; ring)

theorem seg_54 (rho t r p : ℝ) (ht : 0 < t) (hr : 0 < r) (hp0 : 0 < p) (hp2 : p < Real.pi / 2) :
    QlmACH.segCell rho t r (r * Real.cos p) 5 4 = densityInner rho (prism t (segment r (r * Real.cos p))) 5 ((4 : ℕ) : ℤ) := by
  have hSC := Real.sin_sq_add_cos_sq p
  have hE := expands_tint (r * Real.cos p) (-(r * Real.sin p)) (r * Real.sin p)
  have e1 : r * Real.cos p / r = Real.cos p := by field_simp
  have e2 : Real.arccos (Real.cos p) = p := Real.arccos_cos hp0.le (by linarith [Real.pi_pos])
  have e3 : Real.sqrt (1 - Real.cos p ^ 2) = Real.sin p := by
    rw [← Real.sin_sq, Real.sqrt_sq (Real.sin_nonneg_of_nonneg_of_le_pi hp0.le (by linarith [Real.pi_pos]))]
  rw [densityInner, prismI_54 t ht _ (segment_compact _ _ hr.le), mul_zero]
  rfl

theorem seg_55 (rho t r p : ℝ) (ht : 0 < t) (hr : 0 < r) (hp0 : 0 < p) (hp2 : p < Real.pi / 2) :
    QlmACH.segCell rho t r (r * Real.cos p) 5 5 = densityInner rho (prism t (segment r (r * Real.cos p))) 5 ((5 : ℕ) : ℤ) := by
  have hSC := Real.sin_sq_add_cos_sq p
  have hE := expands_tint (r * Real.cos p) (-(r * Real.sin p)) (r * Real.sin p)
  have e1 : r * Real.cos p / r = Real.cos p := by field_simp
  have e2 : Real.arccos (Real.cos p) = p := Real.arccos_cos hp0.le (by linarith [Real.pi_pos])
  have e3 : Real.sqrt (1 - Real.cos p ^ 2) = Real.sin p := by
    rw [← Real.sin_sq, Real.sqrt_sq (Real.sin_nonneg_of_nonneg_of_le_pi hp0.le (by linarith [Real.pi_pos]))]
  have hN : Nlm 5 ((5 : ℕ) : ℤ) = (2520) * Real.sqrt (11 / (7 * Real.pi)) := by
    refine Nlm_sq 5 5 _ (by norm_num) (by positivity) ?_
    have h1 := Real.pi_pos
    simp only [div_pow, mul_pow]
    rw [Real.sq_sqrt (show (0 : ℝ) ≤ 11 / (7 * Real.pi) by positivity)]
    norm_num [Nat.factorial]
    try field_simp
    try norm_num
  rw [densityInner, prismI_55 t ht _ (segment_compact _ _ hr.le), pm_seg r p hr hp0 hp2 5 0, pm_sec 0 r 0 p le_rfl hr.le hp0.le (by linarith [Real.pi_pos]) 5 0 (by norm_num), pmX_50 hE, hN]
  simp only [QlmACH.segCell, QlmACH.seg55, e1, e2, e3, Nat.cast_ofNat, Nat.cast_one, one_mul, sin_2p, sin_3p, sin_4p, sin_5p]
  have hp := sqrt_pi_ne
  have hs := sqrt_cast_ne (11 / (7 * Real.pi)) (by positivity)
  generalize Real.sin p = S at *
  generalize Real.cos p = C at *
  push_cast
  have hSC' : (S : ℂ) ^ 2 = 1 - (C : ℂ) ^ 2 := by rw [eq_sub_iff_add_eq]; exact_mod_cast hSC
  have g3 : (S : ℂ) ^ 3 = S * (1 - (C : ℂ) ^ 2) := by rw [pow_succ, hSC']; ring
  have g4 : (S : ℂ) ^ 4 = (1 - (C : ℂ) ^ 2) ^ 2 := by rw [show (4 : ℕ) = 2 * 2 by norm_num, pow_mul, hSC']
  have g5 : (S : ℂ) ^ 5 = S * (1 - (C : ℂ) ^ 2) ^ 2 := by rw [pow_succ, g4]; ring
  have g6 : (S : ℂ) ^ 6 = (1 - (C : ℂ) ^ 2) ^ 3 := by rw [show (6 : ℕ) = 2 * 3 by norm_num, pow_mul, hSC']
  have g7 : (S : ℂ) ^ 7 = S * (1 - (C : ℂ) ^ 2) ^ 3 := by rw [pow_succ, g6]; ring
  field_simp
  norm_num
  first | done | ring1 | (ring_nf; simp only [Complex.I_sq, Complex.I_pow_three, Complex.I_pow_four, Ipow5, hSC', g3, g4, g5, g6, g7]; ring)

theorem seg_cells (rho t r p : ℝ) (ht : 0 < t) (hr : 0 < r) (hp0 : 0 < p) (hp2 : p < Real.pi / 2) (l m : ℕ) (hm : m ≤ l) (hl : l ≤ 5) :
    QlmACH.segCell rho t r (r * Real.cos p) l m = densityInner rho (prism t (segment r (r * Real.cos p))) l m := by
  refine cells21 (fun l m => QlmACH.segCell rho t r (r * Real.cos p) l m = densityInner rho (prism t (segment r (r * Real.cos p))) l ((m : ℕ) : ℤ))
    (seg_00 rho t r p ht hr hp0 hp2) (seg_10 rho t r p ht hr hp0 hp2) (seg_11 rho t r p ht hr hp0 hp2) (seg_20 rho t r p ht hr hp0 hp2) (seg_21 rho t r p ht hr hp0 hp2) (seg_22 rho t r p ht hr hp0 hp2) (seg_30 rho t r p ht hr hp0 hp2) (seg_31 rho t r p ht hr hp0 hp2) (seg_32 rho t r p ht hr hp0 hp2) (seg_33 rho t r p ht hr hp0 hp2) (seg_40 rho t r p ht hr hp0 hp2) (seg_41 rho t r p ht hr hp0 hp2) (seg_42 rho t r p ht hr hp0 hp2) (seg_43 rho t r p ht hr hp0 hp2) (seg_44 rho t r p ht hr hp0 hp2) (seg_50 rho t r p ht hr hp0 hp2) (seg_51 rho t r p ht hr hp0 hp2) (seg_52 rho t r p ht hr hp0 hp2) (seg_53 rho t r p ht hr hp0 hp2) (seg_54 rho t r p ht hr hp0 hp2) (seg_55 rho t r p ht hr hp0 hp2) l m hm hl

theorem seg_high (rho t r d : ℝ) (l m : ℕ) (hl : 5 < l) : QlmACH.segCell rho t r d l m = 0 := by
  obtain ⟨k, rfl⟩ : ∃ k, l = k + 6 := ⟨l - 6, by omega⟩
  rfl

end Newt.Ach
