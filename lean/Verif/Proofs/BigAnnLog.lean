import Verif.Proofs.BigAnnCells

/-! # The double integrals behind the closed forms of `newt/bigQlm.py` `annulus` (logarithmic cases) -/

namespace Newt

open QlmNum

theorem dd_add_pos (r z : ℝ) (hr : 0 < r) : 0 < z + dd r z := by
  have h : |z| < dd r z := by
    rw [dd]
    refine Real.lt_sqrt_of_sq_lt ?_
    rw [sq_abs]; nlinarith
  have := neg_abs_le z
  linarith

theorem cylShi_00 (z r : ℝ) : cylShi 0 0 z r = 1 := by
  rw [cylShi_fact _ _ (by norm_num)]; norm_num [Finset.sum_range_succ, Nat.factorial]

theorem cylShi_10 (z r : ℝ) : cylShi 1 0 z r = z := by
  rw [cylShi_fact _ _ (by norm_num)]; norm_num [Finset.sum_range_succ, Nat.factorial]

theorem cylShi_11 (z r : ℝ) : cylShi 1 1 z r = r / 2 := by
  rw [cylShi_fact _ _ (by norm_num)]; norm_num [Finset.sum_range_succ, Nat.factorial]

theorem cylShi_21 (z r : ℝ) : cylShi 2 1 z r = r * z / 2 := by
  rw [cylShi_fact _ _ (by norm_num)]; norm_num [Finset.sum_range_succ, Nat.factorial]

theorem cylShi_22 (z r : ℝ) : cylShi 2 2 z r = r ^ 2 / 8 := by
  rw [cylShi_fact _ _ (by norm_num)]; norm_num [Finset.sum_range_succ, Nat.factorial]

/-- `d/dz log(z + d) = 1/d`. -/
theorem logz_hasDerivAt (r z : ℝ) (hr : 0 < r) : HasDerivAt (fun z => Real.log (z + dd r z)) (1 / dd r z) z := by
  have hd := (dd_pos r z hr).ne'
  have hp := (dd_add_pos r z hr).ne'
  have h := ((hasDerivAt_id z).add (dd_hasDerivAt_z r z hr)).log hp
  refine h.congr_deriv ?_
  simp only [Pi.add_apply, id] at *
  field_simp
  ring

/-- `d/dr log(H + d) = r/(d (H + d))`, written without the sum. -/
theorem logH_hasDerivAt (r H : ℝ) (hr : 0 < r) :
    HasDerivAt (fun r => Real.log (H + dd r H)) ((dd r H - H) / (r * dd r H)) r := by
  have hd := (dd_pos r H hr).ne'
  have hp := (dd_add_pos r H hr).ne'
  have hr' := hr.ne'
  have h := ((dd_hasDerivAt_r r H hr).const_add H).log hp
  refine h.congr_deriv ?_
  field_simp
  have := dd_sq r H
  nlinarith

/-- `d/dr log(r + d) = 1/d`. -/
theorem logr_hasDerivAt (r H : ℝ) (hr : 0 < r) :
    HasDerivAt (fun r => Real.log (r + dd r H)) (1 / dd r H) r := by
  have hd := (dd_pos r H hr).ne'
  have hp : r + dd r H ≠ 0 := by have := dd_pos r H hr; positivity
  have h := ((hasDerivAt_id r).add (dd_hasDerivAt_r r H hr)).log hp
  refine h.congr_deriv ?_
  simp only [Pi.add_apply, id] at *
  field_simp
  ring

theorem ann_00 (H r0 r1 : ℝ) (h0 : 0 < r0) (h1 : r0 ≤ r1) :
    2 * annInt 0 0 H r0 r1 = (H * dd r1 H + r1 ^ 2 * (Real.log (H + dd r1 H) - Real.log r1))
      - (H * dd r0 H + r0 ^ 2 * (Real.log (H + dd r0 H) - Real.log r0)) := by
  refine annInt_eq 0 0 2 H r0 r1 h0 h1 (fun r => H * dd r H + r ^ 2 * (Real.log (H + dd r H) - Real.log r))
    (fun r z => 2 * r * (Real.log (z + dd r z) - Real.log r)) ?_ ?_ ?_
  · intro r hr
    have hd := (dd_pos r H hr).ne'
    have hr' := hr.ne'
    have h := ((dd_hasDerivAt_r r H hr).const_mul H).add
      ((hasDerivAt_pow 2 r).mul ((logH_hasDerivAt r H hr).sub (Real.hasDerivAt_log hr')))
    refine h.congr_deriv ?_
    simp only [Pi.sub_apply]
    push_cast
    field_simp
    ring
  · intro r z hr
    have hd := (dd_pos r z hr).ne'
    have h := ((logz_hasDerivAt r z hr).sub_const (Real.log r)).const_mul (2 * r)
    refine h.congr_deriv ?_
    rw [cylShi_00]
    field_simp
    ring
  · intro r hr
    rw [dd_zero r hr]; simp

theorem ann_10 (H r0 r1 : ℝ) (h0 : 0 < r0) (h1 : r0 ≤ r1) :
    1 * annInt 1 0 H r0 r1 = (r1 - dd r1 H) - (r0 - dd r0 H) := by
  refine annInt_eq 1 0 1 H r0 r1 h0 h1 (fun r => r - dd r H) (fun r z => 1 - r * (dd r z)⁻¹) ?_ ?_ ?_
  · intro r hr
    have h := (hasDerivAt_id r).sub (dd_hasDerivAt_r r H hr)
    exact h.congr_deriv (by rw [div_eq_mul_inv])
  · intro r z hr
    have hd := (dd_pos r z hr).ne'
    have h := (((dd_hasDerivAt_z r z hr).inv hd).const_mul r).const_sub 1
    refine h.congr_deriv ?_
    rw [cylShi_10]
    field_simp
  · intro r hr
    rw [dd_zero r hr, mul_inv_cancel₀ hr.ne', sub_self]

theorem ann_11 (H r0 r1 : ℝ) (h0 : 0 < r0) (h1 : r0 ≤ r1) :
    2 * annInt 1 1 H r0 r1 = H * Real.log (r1 + dd r1 H) - H * Real.log (r0 + dd r0 H) := by
  refine annInt_eq 1 1 2 H r0 r1 h0 h1 (fun r => H * Real.log (r + dd r H)) (fun r z => z / dd r z) ?_ ?_ ?_
  · intro r hr
    have h := (logr_hasDerivAt r H hr).const_mul H
    exact h.congr_deriv (by rw [mul_one_div])
  · intro r z hr
    have hd := (dd_pos r z hr).ne'
    have h := (hasDerivAt_id z).div (dd_hasDerivAt_z r z hr) hd
    refine h.congr_deriv ?_
    rw [cylShi_11]
    have := dd_sq r z
    simp only [id]
    field_simp
    rw [show dd r z ^ 2 - z ^ 2 = r ^ 2 by linarith]
    ring
  · intro r hr
    simp

theorem ann_21 (H r0 r1 : ℝ) (h0 : 0 < r0) (h1 : r0 ≤ r1) :
    6 * annInt 2 1 H r0 r1 = (r1 / dd r1 H + Real.log r1 - Real.log (r1 + dd r1 H))
      - (r0 / dd r0 H + Real.log r0 - Real.log (r0 + dd r0 H)) := by
  refine annInt_eq 2 1 6 H r0 r1 h0 h1 (fun r => r / dd r H + Real.log r - Real.log (r + dd r H))
    (fun r z => 1 / r - r ^ 2 * (dd r z ^ 3)⁻¹) ?_ ?_ ?_
  · intro r hr
    have hd := (dd_pos r H hr).ne'
    have hr' := hr.ne'
    have h := (((hasDerivAt_id r).div (dd_hasDerivAt_r r H hr) hd).add (Real.hasDerivAt_log hr')).sub
      (logr_hasDerivAt r H hr)
    refine h.congr_deriv ?_
    simp only [id]
    field_simp
    ring
  · intro r z hr
    have hd := (dd_pos r z hr).ne'
    have h := ((((dd_hasDerivAt_z r z hr).pow 3).inv (pow_ne_zero 3 hd)).const_mul (r ^ 2)).const_sub (1 / r)
    refine h.congr_deriv ?_
    rw [cylShi_21]
    simp only [Pi.pow_apply]
    push_cast
    field_simp
    ring
  · intro r hr
    have hr' := hr.ne'
    rw [dd_zero r hr]
    field_simp
    ring

theorem ann_22 (H r0 r1 : ℝ) (h0 : 0 < r0) (h1 : r0 ≤ r1) :
    24 * annInt 2 2 H r0 r1 = (-H / dd r1 H - 2 * Real.log (H + dd r1 H) + 2 * Real.log r1)
      - (-H / dd r0 H - 2 * Real.log (H + dd r0 H) + 2 * Real.log r0) := by
  refine annInt_eq 2 2 24 H r0 r1 h0 h1 (fun r => -H / dd r H - 2 * Real.log (H + dd r H) + 2 * Real.log r)
    (fun r z => (z * r) / dd r z ^ 3 + 2 * z / (r * dd r z)) ?_ ?_ ?_
  · intro r hr
    have hd := (dd_pos r H hr).ne'
    have hr' := hr.ne'
    have h := ((((hasDerivAt_const r (-H)).div (dd_hasDerivAt_r r H hr) hd)).sub
      ((logH_hasDerivAt r H hr).const_mul 2)).add ((Real.hasDerivAt_log hr').const_mul 2)
    refine h.congr_deriv ?_
    field_simp
    ring
  · intro r z hr
    have hd := (dd_pos r z hr).ne'
    have hr' := hr.ne'
    have h := (((hasDerivAt_id z).mul_const r).div ((dd_hasDerivAt_z r z hr).pow 3) (pow_ne_zero 3 hd)).add
      (((hasDerivAt_id z).const_mul 2).div ((dd_hasDerivAt_z r z hr).const_mul r) (mul_ne_zero hr' hd))
    refine h.congr_deriv ?_
    rw [cylShi_22]
    simp only [id, Pi.pow_apply]
    push_cast
    have hs := dd_sq r z
    have hr2 : r ^ 2 = dd r z ^ 2 - z ^ 2 := by linarith
    field_simp
    rw [hr2]
    ring_nf
    rw [show r ^ 4 = (r ^ 2) ^ 2 by ring, hr2]
    ring
  · intro r hr
    simp

end Newt
