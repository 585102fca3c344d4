import Verif.Proofs.AchCylInt

/-! # cylhole2 cells against the volume integrals -/

namespace Newt.Ach

open MeasureTheory Finset Spec

theorem ell_00 (rho r R : ℝ) (hr : 0 < r) (hR : r ≤ R) :
    QlmACH.ellCell rho r R 0 0 = densityInner rho (drilledYCylinder r R) 0 ((0 : ℕ) : ℤ) := by
  have hN : Nlm 0 ((0 : ℕ) : ℤ) = (1 / 2) / Real.sqrt (Real.pi) := by
    refine Nlm_sq 0 0 _ (by norm_num) (by positivity) ?_
    have h1 := Real.pi_pos
    simp only [div_pow, mul_pow]
    rw [Real.sq_sqrt (show (0 : ℝ) ≤ Real.pi by positivity)]
    norm_num [Nat.factorial]
    try field_simp
    try norm_num
  have hR0 : 0 < R := by linarith
  obtain ⟨k, rfl⟩ : ∃ k, r = k * R := ⟨r / R, by field_simp⟩
  have hk0 : 0 < k := by by_contra h; nlinarith
  have hk1 : k ≤ 1 := by by_contra h; nlinarith
  have hkR : k * R / R = k := by field_simp
  obtain ⟨t0, t1, t2⟩ := tInt_ell k _ _ hk0 hk1 rfl rfl
  rw [densityInner, cylI_00 _ R hr hR, hN]
  simp only [QlmACH.ellCell, QlmACH.ell00, hkR]
  generalize (if k = 1 then (1 : ℝ) else QlmACH.ellipe (k ^ 2)) = E at *
  generalize (if k = 1 then (0 : ℝ) else QlmACH.ellipk (k ^ 2)) = K at *
  rw [← eq_div_iff (by positivity)] at t0 t1 t2
  simp only [t0, t1, t2]
  have hp := sqrt_pi_ne
  have hRc : (R : ℂ) ≠ 0 := Complex.ofReal_ne_zero.2 hR0.ne'
  have hkc : (k : ℂ) ≠ 0 := Complex.ofReal_ne_zero.2 hk0.ne'
  push_cast
  field_simp
  try ring

theorem ell_10 (rho r R : ℝ) (hr : 0 < r) (hR : r ≤ R) :
    QlmACH.ellCell rho r R 1 0 = densityInner rho (drilledYCylinder r R) 1 ((0 : ℕ) : ℤ) := by
  rw [densityInner, cylI_10 r R hr hR, mul_zero]
  rfl

theorem ell_11 (rho r R : ℝ) (hr : 0 < r) (hR : r ≤ R) :
    QlmACH.ellCell rho r R 1 1 = densityInner rho (drilledYCylinder r R) 1 ((1 : ℕ) : ℤ) := by
  rw [densityInner, cylI_11 r R hr hR, mul_zero]
  rfl

theorem ell_20 (rho r R : ℝ) (hr : 0 < r) (hR : r ≤ R) :
    QlmACH.ellCell rho r R 2 0 = densityInner rho (drilledYCylinder r R) 2 ((0 : ℕ) : ℤ) := by
  have hN : Nlm 2 ((0 : ℕ) : ℤ) = (5) / Real.sqrt (5 * Real.pi) := by
    refine Nlm_sq 2 0 _ (by norm_num) (by positivity) ?_
    have h1 := Real.pi_pos
    simp only [div_pow, mul_pow]
    rw [Real.sq_sqrt (show (0 : ℝ) ≤ 5 * Real.pi by positivity)]
    norm_num [Nat.factorial]
    try field_simp
    try norm_num
  have hR0 : 0 < R := by linarith
  obtain ⟨k, rfl⟩ : ∃ k, r = k * R := ⟨r / R, by field_simp⟩
  have hk0 : 0 < k := by by_contra h; nlinarith
  have hk1 : k ≤ 1 := by by_contra h; nlinarith
  have hkR : k * R / R = k := by field_simp
  obtain ⟨t0, t1, t2⟩ := tInt_ell k _ _ hk0 hk1 rfl rfl
  rw [densityInner, cylI_20 _ R hr hR, hN]
  simp only [QlmACH.ellCell, QlmACH.ell20, hkR]
  generalize (if k = 1 then (1 : ℝ) else QlmACH.ellipe (k ^ 2)) = E at *
  generalize (if k = 1 then (0 : ℝ) else QlmACH.ellipk (k ^ 2)) = K at *
  rw [← eq_div_iff (by positivity)] at t0 t1 t2
  simp only [t0, t1, t2]
  have hp := sqrt_pi_ne
  have hs := sqrt_cast_ne (5 * Real.pi) (by positivity)
  have hRc : (R : ℂ) ≠ 0 := Complex.ofReal_ne_zero.2 hR0.ne'
  have hkc : (k : ℂ) ≠ 0 := Complex.ofReal_ne_zero.2 hk0.ne'
  push_cast
  field_simp
  try ring

theorem ell_21 (rho r R : ℝ) (hr : 0 < r) (hR : r ≤ R) :
    QlmACH.ellCell rho r R 2 1 = densityInner rho (drilledYCylinder r R) 2 ((1 : ℕ) : ℤ) := by
  rw [densityInner, cylI_21 r R hr hR, mul_zero]
  rfl

theorem ell_22 (rho r R : ℝ) (hr : 0 < r) (hR : r ≤ R) :
    QlmACH.ellCell rho r R 2 2 = densityInner rho (drilledYCylinder r R) 2 ((2 : ℕ) : ℤ) := by
  have hN : Nlm 2 ((2 : ℕ) : ℤ) = (15) * Real.sqrt (2 / (15 * Real.pi)) := by
    refine Nlm_sq 2 2 _ (by norm_num) (by positivity) ?_
    have h1 := Real.pi_pos
    simp only [div_pow, mul_pow]
    rw [Real.sq_sqrt (show (0 : ℝ) ≤ 2 / (15 * Real.pi) by positivity)]
    norm_num [Nat.factorial]
    try field_simp
    try norm_num
  have hR0 : 0 < R := by linarith
  obtain ⟨k, rfl⟩ : ∃ k, r = k * R := ⟨r / R, by field_simp⟩
  have hk0 : 0 < k := by by_contra h; nlinarith
  have hk1 : k ≤ 1 := by by_contra h; nlinarith
  have hkR : k * R / R = k := by field_simp
  obtain ⟨t0, t1, t2⟩ := tInt_ell k _ _ hk0 hk1 rfl rfl
  rw [densityInner, cylI_22 _ R hr hR, hN]
  simp only [QlmACH.ellCell, QlmACH.ell22, hkR]
  generalize (if k = 1 then (1 : ℝ) else QlmACH.ellipe (k ^ 2)) = E at *
  generalize (if k = 1 then (0 : ℝ) else QlmACH.ellipk (k ^ 2)) = K at *
  rw [← eq_div_iff (by positivity)] at t0 t1 t2
  simp only [t0, t1, t2]
  have hp := sqrt_pi_ne
  have hs := sqrt_cast_ne (2 / (15 * Real.pi)) (by positivity)
  have hRc : (R : ℂ) ≠ 0 := Complex.ofReal_ne_zero.2 hR0.ne'
  have hkc : (k : ℂ) ≠ 0 := Complex.ofReal_ne_zero.2 hk0.ne'
  push_cast
  field_simp
  try ring

theorem ell_30 (rho r R : ℝ) (hr : 0 < r) (hR : r ≤ R) :
    QlmACH.ellCell rho r R 3 0 = densityInner rho (drilledYCylinder r R) 3 ((0 : ℕ) : ℤ) := by
  rw [densityInner, cylI_30 r R hr hR, mul_zero]
  rfl

theorem ell_31 (rho r R : ℝ) (hr : 0 < r) (hR : r ≤ R) :
    QlmACH.ellCell rho r R 3 1 = densityInner rho (drilledYCylinder r R) 3 ((1 : ℕ) : ℤ) := by
  rw [densityInner, cylI_31 r R hr hR, mul_zero]
  rfl

theorem ell_32 (rho r R : ℝ) (hr : 0 < r) (hR : r ≤ R) :
    QlmACH.ellCell rho r R 3 2 = densityInner rho (drilledYCylinder r R) 3 ((2 : ℕ) : ℤ) := by
  rw [densityInner, cylI_32 r R hr hR, mul_zero]
  rfl

theorem ell_33 (rho r R : ℝ) (hr : 0 < r) (hR : r ≤ R) :
    QlmACH.ellCell rho r R 3 3 = densityInner rho (drilledYCylinder r R) 3 ((3 : ℕ) : ℤ) := by
  rw [densityInner, cylI_33 r R hr hR, mul_zero]
  rfl

theorem ell_40 (rho r R : ℝ) (hr : 0 < r) (hR : r ≤ R) :
    QlmACH.ellCell rho r R 4 0 = densityInner rho (drilledYCylinder r R) 4 ((0 : ℕ) : ℤ) := by
  have hN : Nlm 4 ((0 : ℕ) : ℤ) = (36) / Real.sqrt (Real.pi) := by
    refine Nlm_sq 4 0 _ (by norm_num) (by positivity) ?_
    have h1 := Real.pi_pos
    simp only [div_pow, mul_pow]
    rw [Real.sq_sqrt (show (0 : ℝ) ≤ Real.pi by positivity)]
    norm_num [Nat.factorial]
    try field_simp
    try norm_num
  have hR0 : 0 < R := by linarith
  obtain ⟨k, rfl⟩ : ∃ k, r = k * R := ⟨r / R, by field_simp⟩
  have hk0 : 0 < k := by by_contra h; nlinarith
  have hk1 : k ≤ 1 := by by_contra h; nlinarith
  have hkR : k * R / R = k := by field_simp
  obtain ⟨t0, t1, t2⟩ := tInt_ell k _ _ hk0 hk1 rfl rfl
  rw [densityInner, cylI_40 _ R hr hR, hN]
  simp only [QlmACH.ellCell, QlmACH.ell40, hkR]
  generalize (if k = 1 then (1 : ℝ) else QlmACH.ellipe (k ^ 2)) = E at *
  generalize (if k = 1 then (0 : ℝ) else QlmACH.ellipk (k ^ 2)) = K at *
  rw [← eq_div_iff (by positivity)] at t0 t1 t2
  simp only [t0, t1, t2]
  have hp := sqrt_pi_ne
  have hRc : (R : ℂ) ≠ 0 := Complex.ofReal_ne_zero.2 hR0.ne'
  have hkc : (k : ℂ) ≠ 0 := Complex.ofReal_ne_zero.2 hk0.ne'
  push_cast
  field_simp
  try ring

theorem ell_41 (rho r R : ℝ) (hr : 0 < r) (hR : r ≤ R) :
    QlmACH.ellCell rho r R 4 1 = densityInner rho (drilledYCylinder r R) 4 ((1 : ℕ) : ℤ) := by
  rw [densityInner, cylI_41 r R hr hR, mul_zero]
  rfl

theorem ell_42 (rho r R : ℝ) (hr : 0 < r) (hR : r ≤ R) :
    QlmACH.ellCell rho r R 4 2 = densityInner rho (drilledYCylinder r R) 4 ((2 : ℕ) : ℤ) := by
  have hN : Nlm 4 ((2 : ℕ) : ℤ) = (180) / Real.sqrt (10 * Real.pi) := by
    refine Nlm_sq 4 2 _ (by norm_num) (by positivity) ?_
    have h1 := Real.pi_pos
    simp only [div_pow, mul_pow]
    rw [Real.sq_sqrt (show (0 : ℝ) ≤ 10 * Real.pi by positivity)]
    norm_num [Nat.factorial]
    try field_simp
    try norm_num
  have hR0 : 0 < R := by linarith
  obtain ⟨k, rfl⟩ : ∃ k, r = k * R := ⟨r / R, by field_simp⟩
  have hk0 : 0 < k := by by_contra h; nlinarith
  have hk1 : k ≤ 1 := by by_contra h; nlinarith
  have hkR : k * R / R = k := by field_simp
  obtain ⟨t0, t1, t2⟩ := tInt_ell k _ _ hk0 hk1 rfl rfl
  rw [densityInner, cylI_42 _ R hr hR, hN]
  simp only [QlmACH.ellCell, QlmACH.ell42, hkR]
  generalize (if k = 1 then (1 : ℝ) else QlmACH.ellipe (k ^ 2)) = E at *
  generalize (if k = 1 then (0 : ℝ) else QlmACH.ellipk (k ^ 2)) = K at *
  rw [← eq_div_iff (by positivity)] at t0 t1 t2
  simp only [t0, t1, t2]
  have hp := sqrt_pi_ne
  have hs := sqrt_cast_ne (10 * Real.pi) (by positivity)
  have hRc : (R : ℂ) ≠ 0 := Complex.ofReal_ne_zero.2 hR0.ne'
  have hkc : (k : ℂ) ≠ 0 := Complex.ofReal_ne_zero.2 hk0.ne'
  push_cast
  field_simp
  try ring

theorem ell_43 (rho r R : ℝ) (hr : 0 < r) (hR : r ≤ R) :
    QlmACH.ellCell rho r R 4 3 = densityInner rho (drilledYCylinder r R) 4 ((3 : ℕ) : ℤ) := by
  rw [densityInner, cylI_43 r R hr hR, mul_zero]
  rfl

theorem ell_44 (rho r R : ℝ) (hr : 0 < r) (hR : r ≤ R) :
    QlmACH.ellCell rho r R 4 4 = densityInner rho (drilledYCylinder r R) 4 ((4 : ℕ) : ℤ) := by
  have hN : Nlm 4 ((4 : ℕ) : ℤ) = (2520) / Real.sqrt (70 * Real.pi) := by
    refine Nlm_sq 4 4 _ (by norm_num) (by positivity) ?_
    have h1 := Real.pi_pos
    simp only [div_pow, mul_pow]
    rw [Real.sq_sqrt (show (0 : ℝ) ≤ 70 * Real.pi by positivity)]
    norm_num [Nat.factorial]
    try field_simp
    try norm_num
  have hR0 : 0 < R := by linarith
  obtain ⟨k, rfl⟩ : ∃ k, r = k * R := ⟨r / R, by field_simp⟩
  have hk0 : 0 < k := by by_contra h; nlinarith
  have hk1 : k ≤ 1 := by by_contra h; nlinarith
  have hkR : k * R / R = k := by field_simp
  obtain ⟨t0, t1, t2⟩ := tInt_ell k _ _ hk0 hk1 rfl rfl
  rw [densityInner, cylI_44 _ R hr hR, hN]
  simp only [QlmACH.ellCell, QlmACH.ell44, hkR]
  generalize (if k = 1 then (1 : ℝ) else QlmACH.ellipe (k ^ 2)) = E at *
  generalize (if k = 1 then (0 : ℝ) else QlmACH.ellipk (k ^ 2)) = K at *
  rw [← eq_div_iff (by positivity)] at t0 t1 t2
  simp only [t0, t1, t2]
  have hp := sqrt_pi_ne
  have hs := sqrt_cast_ne (70 * Real.pi) (by positivity)
  have hRc : (R : ℂ) ≠ 0 := Complex.ofReal_ne_zero.2 hR0.ne'
  have hkc : (k : ℂ) ≠ 0 := Complex.ofReal_ne_zero.2 hk0.ne'
  push_cast
  field_simp
  try ring

theorem ell_50 (rho r R : ℝ) (hr : 0 < r) (hR : r ≤ R) :
    QlmACH.ellCell rho r R 5 0 = densityInner rho (drilledYCylinder r R) 5 ((0 : ℕ) : ℤ) := by
  rw [densityInner, cylI_50 r R hr hR, mul_zero]
  rfl

theorem ell_51 (rho r R : ℝ) (hr : 0 < r) (hR : r ≤ R) :
    QlmACH.ellCell rho r R 5 1 = densityInner rho (drilledYCylinder r R) 5 ((1 : ℕ) : ℤ) := by
  rw [densityInner, cylI_51 r R hr hR, mul_zero]
  rfl

theorem ell_52 (rho r R : ℝ) (hr : 0 < r) (hR : r ≤ R) :
    QlmACH.ellCell rho r R 5 2 = densityInner rho (drilledYCylinder r R) 5 ((2 : ℕ) : ℤ) := by
  rw [densityInner, cylI_52 r R hr hR, mul_zero]
  rfl

theorem ell_53 (rho r R : ℝ) (hr : 0 < r) (hR : r ≤ R) :
    QlmACH.ellCell rho r R 5 3 = densityInner rho (drilledYCylinder r R) 5 ((3 : ℕ) : ℤ) := by
  rw [densityInner, cylI_53 r R hr hR, mul_zero]
  rfl

theorem ell_54 (rho r R : ℝ) (hr : 0 < r) (hR : r ≤ R) :
    QlmACH.ellCell rho r R 5 4 = densityInner rho (drilledYCylinder r R) 5 ((4 : ℕ) : ℤ) := by
  rw [densityInner, cylI_54 r R hr hR, mul_zero]
  rfl

theorem ell_55 (rho r R : ℝ) (hr : 0 < r) (hR : r ≤ R) :
    QlmACH.ellCell rho r R 5 5 = densityInner rho (drilledYCylinder r R) 5 ((5 : ℕ) : ℤ) := by
  rw [densityInner, cylI_55 r R hr hR, mul_zero]
  rfl

theorem ell_cells (rho r R : ℝ) (hr : 0 < r) (hR : r ≤ R) (l m : ℕ) (hm : m ≤ l) (hl : l ≤ 5) :
    QlmACH.ellCell rho r R l m = densityInner rho (drilledYCylinder r R) l m := by
  refine cells21 (fun l m => QlmACH.ellCell rho r R l m = densityInner rho (drilledYCylinder r R) l ((m : ℕ) : ℤ))
    (ell_00 rho r R hr hR) (ell_10 rho r R hr hR) (ell_11 rho r R hr hR) (ell_20 rho r R hr hR) (ell_21 rho r R hr hR) (ell_22 rho r R hr hR) (ell_30 rho r R hr hR) (ell_31 rho r R hr hR) (ell_32 rho r R hr hR) (ell_33 rho r R hr hR) (ell_40 rho r R hr hR) (ell_41 rho r R hr hR) (ell_42 rho r R hr hR) (ell_43 rho r R hr hR) (ell_44 rho r R hr hR) (ell_50 rho r R hr hR) (ell_51 rho r R hr hR) (ell_52 rho r R hr hR) (ell_53 rho r R hr hR) (ell_54 rho r R hr hR) (ell_55 rho r R hr hR) l m hm hl

theorem ell_high (rho r R : ℝ) (l m : ℕ) (hl : 5 < l) : QlmACH.ellCell rho r R l m = 0 := by
  obtain ⟨k, rfl⟩ : ∃ k, l = k + 6 := ⟨l - 6, by omega⟩
  rfl

end Newt.Ach
