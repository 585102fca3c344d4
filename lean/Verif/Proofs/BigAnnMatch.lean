import Verif.Proofs.BigAnnLog
import Verif.Model.BigQlm

/-! # The cells of `newt/bigQlm.py` `annulus` against the double integrals -/

namespace Newt

open QlmNum BigQlm

theorem sqrt_scale (c X Y : ℝ) (hc : 0 ≤ c) (h : X = c ^ 2 * Y) : Real.sqrt X = c * Real.sqrt Y := by
  rw [h, Real.sqrt_mul (by positivity), Real.sqrt_sq hc]

theorem sqrt_over (c X Y : ℝ) (hc : 0 ≤ c) (hY : 0 < Y) (h : X * Y = c ^ 2) : Real.sqrt X = c / Real.sqrt Y := by
  rw [eq_div_iff (Real.sqrt_pos.2 hY).ne', ← Real.sqrt_mul' _ hY.le, h, Real.sqrt_sq hc]

/-- The azimuthal integral of `cos(m theta)` over the section. -/
noncomputable def azim (m : ℕ) (phih : ℝ) : ℝ := if m = 0 then 2 * phih else 2 * Real.sin (m * phih) / m

theorem ddswap (r H : ℝ) : Real.sqrt (H ^ 2 + r ^ 2) = dd r H := by rw [dd, add_comm]

/-- The outer moment of the section over `dens`, as a product of one-dimensional factors. -/
noncomputable def annVal (l m : ℕ) (s H r0 r1 phih : ℝ) : ℝ :=
  (-1) ^ m * Real.sqrt ((2 * l + 1) * gfac l m / (4 * Real.pi)) * azim m phih * s ^ (l + m) * annInt l m H r0 r1

theorem annCell_00 (dens s H r0 r1 phih : ℝ) (hs : s = 1 ∨ s = -1) (hH : 0 < H) (h0 : 0 < r0) (h1 : r0 ≤ r1) :
    annCell dens s H r0 r1 phih 0 0 = dens * annVal 0 0 s H r0 r1 phih := by
  have hr1 : 0 < r1 := lt_of_lt_of_le h0 h1
  have hd1 := dd_pos r1 H hr1
  have hd0 := dd_pos r0 H h0
  have hq1 : 0 < r1 + dd r1 H := by positivity
  have hq0 : 0 < r0 + dd r0 H := by positivity
  have hN : Real.sqrt ((2 * (0 : ℕ) + 1) * gfac 0 0 / (4 * Real.pi)) = (1/2) / Real.sqrt Real.pi := by
    refine sqrt_over _ _ _ (by norm_num) (by positivity) ?_
    rw [gfac_eq 0 0 (by norm_num)]
    norm_num [Nat.factorial]
    try field_simp
    try norm_num
  have hI : annInt 0 0 H r0 r1 = ((2) * annInt 0 0 H r0 r1) / (2) := by ring
  rw [annVal, hN, hI, ann_00 H r0 r1 h0 h1]
  simp only [annCell, cell00, azim, ddswap, one_ne_zero, OfNat.ofNat_ne_zero, if_true, if_false]
  rw [Real.log_div (dd_add_pos r1 H hr1).ne' hr1.ne', Real.log_div (dd_add_pos r0 H h0).ne' h0.ne']
  have hsp : 0 < Real.sqrt (Real.pi) := Real.sqrt_pos.2 (by positivity)
  push_cast
  rcases hs with rfl | rfl
  · field_simp
    try ring
  · field_simp
    try ring

theorem annCell_10 (dens s H r0 r1 phih : ℝ) (hs : s = 1 ∨ s = -1) (hH : 0 < H) (h0 : 0 < r0) (h1 : r0 ≤ r1) :
    annCell dens s H r0 r1 phih 1 0 = dens * annVal 1 0 s H r0 r1 phih := by
  have hr1 : 0 < r1 := lt_of_lt_of_le h0 h1
  have hd1 := dd_pos r1 H hr1
  have hd0 := dd_pos r0 H h0
  have hq1 : 0 < r1 + dd r1 H := by positivity
  have hq0 : 0 < r0 + dd r0 H := by positivity
  have hN : Real.sqrt ((2 * (1 : ℕ) + 1) * gfac 1 0 / (4 * Real.pi)) = (1/2) * Real.sqrt (3 / Real.pi) := by
    refine sqrt_scale _ _ _ (by norm_num) ?_
    rw [gfac_eq 1 0 (by norm_num)]
    norm_num [Nat.factorial]
    try field_simp
    try norm_num
  have hI : annInt 1 0 H r0 r1 = ((1) * annInt 1 0 H r0 r1) / (1) := by ring
  rw [annVal, hN, hI, ann_10 H r0 r1 h0 h1]
  simp only [annCell, cell10, azim, ddswap, one_ne_zero, OfNat.ofNat_ne_zero, if_true, if_false]
  have hsp : 0 < Real.sqrt (3 / Real.pi) := Real.sqrt_pos.2 (by positivity)
  push_cast
  rcases hs with rfl | rfl
  · field_simp
    try ring
  · field_simp
    try ring

theorem annCell_11 (dens s H r0 r1 phih : ℝ) (hs : s = 1 ∨ s = -1) (hH : 0 < H) (h0 : 0 < r0) (h1 : r0 ≤ r1) :
    annCell dens s H r0 r1 phih 1 1 = dens * annVal 1 1 s H r0 r1 phih := by
  have hr1 : 0 < r1 := lt_of_lt_of_le h0 h1
  have hd1 := dd_pos r1 H hr1
  have hd0 := dd_pos r0 H h0
  have hq1 : 0 < r1 + dd r1 H := by positivity
  have hq0 : 0 < r0 + dd r0 H := by positivity
  have hN : Real.sqrt ((2 * (1 : ℕ) + 1) * gfac 1 1 / (4 * Real.pi)) = (1) * Real.sqrt (3 / (2 * Real.pi)) := by
    refine sqrt_scale _ _ _ (by norm_num) ?_
    rw [gfac_eq 1 1 (by norm_num)]
    norm_num [Nat.factorial]
    try field_simp
    try norm_num
  have hI : annInt 1 1 H r0 r1 = ((2) * annInt 1 1 H r0 r1) / (2) := by ring
  rw [annVal, hN, hI, ann_11 H r0 r1 h0 h1]
  simp only [annCell, cell11, azim, ddswap, one_ne_zero, OfNat.ofNat_ne_zero, if_true, if_false]
  rw [Real.log_div hq1.ne' hq0.ne']
  have hsp : 0 < Real.sqrt (3 / (2 * Real.pi)) := Real.sqrt_pos.2 (by positivity)
  push_cast
  rcases hs with rfl | rfl
  · field_simp
    try ring
  · field_simp
    try ring

theorem annCell_20 (dens s H r0 r1 phih : ℝ) (hs : s = 1 ∨ s = -1) (hH : 0 < H) (h0 : 0 < r0) (h1 : r0 ≤ r1) :
    H * annCell dens s H r0 r1 phih 2 0 = dens * annVal 2 0 s H r0 r1 phih := by
  have hr1 : 0 < r1 := lt_of_lt_of_le h0 h1
  have hd1 := dd_pos r1 H hr1
  have hd0 := dd_pos r0 H h0
  have hq1 : 0 < r1 + dd r1 H := by positivity
  have hq0 : 0 < r0 + dd r0 H := by positivity
  have hN : Real.sqrt ((2 * (2 : ℕ) + 1) * gfac 2 0 / (4 * Real.pi)) = (2) * Real.sqrt (5 / (4 * Real.pi)) := by
    refine sqrt_scale _ _ _ (by norm_num) ?_
    rw [gfac_eq 2 0 (by norm_num)]
    norm_num [Nat.factorial]
    try field_simp
    try norm_num
  have hI : annInt 2 0 H r0 r1 = ((4) * annInt 2 0 H r0 r1) / (4) := by ring
  rw [annVal, hN, hI, ann_20 H r0 r1 hH h0 h1]
  simp only [annCell, cell20, azim, ddswap, one_ne_zero, OfNat.ofNat_ne_zero, if_true, if_false]
  have hsp : 0 < Real.sqrt (5 / (4 * Real.pi)) := Real.sqrt_pos.2 (by positivity)
  push_cast
  rcases hs with rfl | rfl
  · field_simp
    try ring
  · field_simp
    try ring

theorem annCell_21 (dens s H r0 r1 phih : ℝ) (hs : s = 1 ∨ s = -1) (hH : 0 < H) (h0 : 0 < r0) (h1 : r0 ≤ r1) :
    annCell dens s H r0 r1 phih 2 1 = dens * annVal 2 1 s H r0 r1 phih := by
  have hr1 : 0 < r1 := lt_of_lt_of_le h0 h1
  have hd1 := dd_pos r1 H hr1
  have hd0 := dd_pos r0 H h0
  have hq1 : 0 < r1 + dd r1 H := by positivity
  have hq0 : 0 < r0 + dd r0 H := by positivity
  have hN : Real.sqrt ((2 * (2 : ℕ) + 1) * gfac 2 1 / (4 * Real.pi)) = (3) * Real.sqrt (5 / (6 * Real.pi)) := by
    refine sqrt_scale _ _ _ (by norm_num) ?_
    rw [gfac_eq 2 1 (by norm_num)]
    norm_num [Nat.factorial]
    try field_simp
    try norm_num
  have hI : annInt 2 1 H r0 r1 = ((6) * annInt 2 1 H r0 r1) / (6) := by ring
  rw [annVal, hN, hI, ann_21 H r0 r1 h0 h1]
  simp only [annCell, cell21, azim, ddswap, one_ne_zero, OfNat.ofNat_ne_zero, if_true, if_false]
  rw [Real.log_div (mul_pos hr1 hq0).ne' (mul_pos h0 hq1).ne', Real.log_mul hr1.ne' hq0.ne', Real.log_mul h0.ne' hq1.ne']
  have hsp : 0 < Real.sqrt (5 / (6 * Real.pi)) := Real.sqrt_pos.2 (by positivity)
  push_cast
  rcases hs with rfl | rfl
  · field_simp
    try ring
  · field_simp
    try ring

theorem annCell_22 (dens s H r0 r1 phih : ℝ) (hs : s = 1 ∨ s = -1) (hH : 0 < H) (h0 : 0 < r0) (h1 : r0 ≤ r1) :
    annCell dens s H r0 r1 phih 2 2 = dens * annVal 2 2 s H r0 r1 phih := by
  have hr1 : 0 < r1 := lt_of_lt_of_le h0 h1
  have hd1 := dd_pos r1 H hr1
  have hd0 := dd_pos r0 H h0
  have hq1 : 0 < r1 + dd r1 H := by positivity
  have hq0 : 0 < r0 + dd r0 H := by positivity
  have hN : Real.sqrt ((2 * (2 : ℕ) + 1) * gfac 2 2 / (4 * Real.pi)) = (6) * Real.sqrt (5 / (6 * Real.pi)) := by
    refine sqrt_scale _ _ _ (by norm_num) ?_
    rw [gfac_eq 2 2 (by norm_num)]
    norm_num [Nat.factorial]
    try field_simp
    try norm_num
  have hI : annInt 2 2 H r0 r1 = ((24) * annInt 2 2 H r0 r1) / (24) := by ring
  rw [annVal, hN, hI, ann_22 H r0 r1 h0 h1]
  simp only [annCell, cell22, azim, ddswap, one_ne_zero, OfNat.ofNat_ne_zero, if_true, if_false]
  rw [Real.log_div (mul_pos h0 (dd_add_pos r1 H hr1)).ne' (mul_pos hr1 (dd_add_pos r0 H h0)).ne', Real.log_mul h0.ne' (dd_add_pos r1 H hr1).ne', Real.log_mul hr1.ne' (dd_add_pos r0 H h0).ne']
  have hsp : 0 < Real.sqrt (5 / (6 * Real.pi)) := Real.sqrt_pos.2 (by positivity)
  push_cast
  rcases hs with rfl | rfl
  · field_simp
    try ring
  · field_simp
    try ring

theorem annCell_30 (dens s H r0 r1 phih : ℝ) (hs : s = 1 ∨ s = -1) (hH : 0 < H) (h0 : 0 < r0) (h1 : r0 ≤ r1) :
    annCell dens s H r0 r1 phih 3 0 = dens * annVal 3 0 s H r0 r1 phih := by
  have hr1 : 0 < r1 := lt_of_lt_of_le h0 h1
  have hd1 := dd_pos r1 H hr1
  have hd0 := dd_pos r0 H h0
  have hq1 : 0 < r1 + dd r1 H := by positivity
  have hq0 : 0 < r0 + dd r0 H := by positivity
  have hN : Real.sqrt ((2 * (3 : ℕ) + 1) * gfac 3 0 / (4 * Real.pi)) = (3) * Real.sqrt (7 / Real.pi) := by
    refine sqrt_scale _ _ _ (by norm_num) ?_
    rw [gfac_eq 3 0 (by norm_num)]
    norm_num [Nat.factorial]
    try field_simp
    try norm_num
  have hI : annInt 3 0 H r0 r1 = ((36) * annInt 3 0 H r0 r1) / (36) := by ring
  rw [annVal, hN, hI, ann_30 H r0 r1 hH h0 h1]
  simp only [annCell, cell30, azim, ddswap, one_ne_zero, OfNat.ofNat_ne_zero, if_true, if_false]
  have hsp : 0 < Real.sqrt (7 / Real.pi) := Real.sqrt_pos.2 (by positivity)
  push_cast
  rcases hs with rfl | rfl
  · field_simp
    try ring
  · field_simp
    try ring

theorem annCell_31 (dens s H r0 r1 phih : ℝ) (hs : s = 1 ∨ s = -1) (hH : 0 < H) (h0 : 0 < r0) (h1 : r0 ≤ r1) :
    annCell dens s H r0 r1 phih 3 1 = dens * annVal 3 1 s H r0 r1 phih := by
  have hr1 : 0 < r1 := lt_of_lt_of_le h0 h1
  have hd1 := dd_pos r1 H hr1
  have hd0 := dd_pos r0 H h0
  have hq1 : 0 < r1 + dd r1 H := by positivity
  have hq0 : 0 < r0 + dd r0 H := by positivity
  have hN : Real.sqrt ((2 * (3 : ℕ) + 1) * gfac 3 1 / (4 * Real.pi)) = (6) * Real.sqrt (7 / (3 * Real.pi)) := by
    refine sqrt_scale _ _ _ (by norm_num) ?_
    rw [gfac_eq 3 1 (by norm_num)]
    norm_num [Nat.factorial]
    try field_simp
    try norm_num
  have hI : annInt 3 1 H r0 r1 = ((-48) * annInt 3 1 H r0 r1) / (-48) := by ring
  rw [annVal, hN, hI, ann_31 H r0 r1 hH h0 h1]
  simp only [annCell, cell31, azim, ddswap, one_ne_zero, OfNat.ofNat_ne_zero, if_true, if_false]
  have hsp : 0 < Real.sqrt (7 / (3 * Real.pi)) := Real.sqrt_pos.2 (by positivity)
  push_cast
  rcases hs with rfl | rfl
  · field_simp
    try ring
  · field_simp
    try ring

theorem annCell_32 (dens s H r0 r1 phih : ℝ) (hs : s = 1 ∨ s = -1) (hH : 0 < H) (h0 : 0 < r0) (h1 : r0 ≤ r1) :
    annCell dens s H r0 r1 phih 3 2 = dens * annVal 3 2 s H r0 r1 phih := by
  have hr1 : 0 < r1 := lt_of_lt_of_le h0 h1
  have hd1 := dd_pos r1 H hr1
  have hd0 := dd_pos r0 H h0
  have hq1 : 0 < r1 + dd r1 H := by positivity
  have hq0 : 0 < r0 + dd r0 H := by positivity
  have hN : Real.sqrt ((2 * (3 : ℕ) + 1) * gfac 3 2 / (4 * Real.pi)) = (30) * Real.sqrt (7 / (30 * Real.pi)) := by
    refine sqrt_scale _ _ _ (by norm_num) ?_
    rw [gfac_eq 3 2 (by norm_num)]
    norm_num [Nat.factorial]
    try field_simp
    try norm_num
  have hI : annInt 3 2 H r0 r1 = ((-120) * annInt 3 2 H r0 r1) / (-120) := by ring
  rw [annVal, hN, hI, ann_32 H r0 r1 hH h0 h1]
  simp only [annCell, cell32, azim, ddswap, one_ne_zero, OfNat.ofNat_ne_zero, if_true, if_false]
  have hsp : 0 < Real.sqrt (7 / (30 * Real.pi)) := Real.sqrt_pos.2 (by positivity)
  push_cast
  rcases hs with rfl | rfl
  · field_simp
    try ring
  · field_simp
    try ring

theorem annCell_33 (dens s H r0 r1 phih : ℝ) (hs : s = 1 ∨ s = -1) (hH : 0 < H) (h0 : 0 < r0) (h1 : r0 ≤ r1) :
    annCell dens s H r0 r1 phih 3 3 = dens * annVal 3 3 s H r0 r1 phih := by
  have hr1 : 0 < r1 := lt_of_lt_of_le h0 h1
  have hd1 := dd_pos r1 H hr1
  have hd0 := dd_pos r0 H h0
  have hq1 : 0 < r1 + dd r1 H := by positivity
  have hq0 : 0 < r0 + dd r0 H := by positivity
  have hN : Real.sqrt ((2 * (3 : ℕ) + 1) * gfac 3 3 / (4 * Real.pi)) = (30) * Real.sqrt (7 / (5 * Real.pi)) := by
    refine sqrt_scale _ _ _ (by norm_num) ?_
    rw [gfac_eq 3 3 (by norm_num)]
    norm_num [Nat.factorial]
    try field_simp
    try norm_num
  have hI : annInt 3 3 H r0 r1 = ((-720) * annInt 3 3 H r0 r1) / (-720) := by ring
  rw [annVal, hN, hI, ann_33 H r0 r1 hH h0 h1]
  simp only [annCell, cell33, azim, ddswap, one_ne_zero, OfNat.ofNat_ne_zero, if_true, if_false]
  have hsp : 0 < Real.sqrt (7 / (5 * Real.pi)) := Real.sqrt_pos.2 (by positivity)
  push_cast
  rcases hs with rfl | rfl
  · field_simp
    try ring
  · field_simp
    try ring

theorem annCell_40 (dens s H r0 r1 phih : ℝ) (hs : s = 1 ∨ s = -1) (hH : 0 < H) (h0 : 0 < r0) (h1 : r0 ≤ r1) :
    annCell dens s H r0 r1 phih 4 0 = dens * annVal 4 0 s H r0 r1 phih := by
  have hr1 : 0 < r1 := lt_of_lt_of_le h0 h1
  have hd1 := dd_pos r1 H hr1
  have hd0 := dd_pos r0 H h0
  have hq1 : 0 < r1 + dd r1 H := by positivity
  have hq0 : 0 < r0 + dd r0 H := by positivity
  have hN : Real.sqrt ((2 * (4 : ℕ) + 1) * gfac 4 0 / (4 * Real.pi)) = (36) / Real.sqrt Real.pi := by
    refine sqrt_over _ _ _ (by norm_num) (by positivity) ?_
    rw [gfac_eq 4 0 (by norm_num)]
    norm_num [Nat.factorial]
    try field_simp
    try norm_num
  have hI : annInt 4 0 H r0 r1 = ((192) * annInt 4 0 H r0 r1) / (192) := by ring
  rw [annVal, hN, hI, ann_40 H r0 r1 hH h0 h1]
  simp only [annCell, cell40, azim, ddswap, one_ne_zero, OfNat.ofNat_ne_zero, if_true, if_false]
  have hsp : 0 < Real.sqrt (Real.pi) := Real.sqrt_pos.2 (by positivity)
  push_cast
  rcases hs with rfl | rfl
  · field_simp
    try ring
  · field_simp
    try ring

theorem annCell_41 (dens s H r0 r1 phih : ℝ) (hs : s = 1 ∨ s = -1) (hH : 0 < H) (h0 : 0 < r0) (h1 : r0 ≤ r1) :
    annCell dens s H r0 r1 phih 4 1 = dens * annVal 4 1 s H r0 r1 phih := by
  have hr1 : 0 < r1 := lt_of_lt_of_le h0 h1
  have hd1 := dd_pos r1 H hr1
  have hd0 := dd_pos r0 H h0
  have hq1 : 0 < r1 + dd r1 H := by positivity
  have hq0 : 0 < r0 + dd r0 H := by positivity
  have hN : Real.sqrt ((2 * (4 : ℕ) + 1) * gfac 4 1 / (4 * Real.pi)) = (90) / Real.sqrt (5 * Real.pi) := by
    refine sqrt_over _ _ _ (by norm_num) (by positivity) ?_
    rw [gfac_eq 4 1 (by norm_num)]
    norm_num [Nat.factorial]
    try field_simp
    try norm_num
  have hI : annInt 4 1 H r0 r1 = ((-1440) * annInt 4 1 H r0 r1) / (-1440) := by ring
  rw [annVal, hN, hI, ann_41 H r0 r1 hH h0 h1]
  simp only [annCell, cell41, azim, ddswap, one_ne_zero, OfNat.ofNat_ne_zero, if_true, if_false]
  have hsp : 0 < Real.sqrt (5 * Real.pi) := Real.sqrt_pos.2 (by positivity)
  push_cast
  rcases hs with rfl | rfl
  · field_simp
    try ring
  · field_simp
    try ring

theorem annCell_42 (dens s H r0 r1 phih : ℝ) (hs : s = 1 ∨ s = -1) (hH : 0 < H) (h0 : 0 < r0) (h1 : r0 ≤ r1) :
    annCell dens s H r0 r1 phih 4 2 = dens * annVal 4 2 s H r0 r1 phih := by
  have hr1 : 0 < r1 := lt_of_lt_of_le h0 h1
  have hd1 := dd_pos r1 H hr1
  have hd0 := dd_pos r0 H h0
  have hq1 : 0 < r1 + dd r1 H := by positivity
  have hq0 : 0 < r0 + dd r0 H := by positivity
  have hN : Real.sqrt ((2 * (4 : ℕ) + 1) * gfac 4 2 / (4 * Real.pi)) = (180) / Real.sqrt (10 * Real.pi) := by
    refine sqrt_over _ _ _ (by norm_num) (by positivity) ?_
    rw [gfac_eq 4 2 (by norm_num)]
    norm_num [Nat.factorial]
    try field_simp
    try norm_num
  have hI : annInt 4 2 H r0 r1 = ((1440) * annInt 4 2 H r0 r1) / (1440) := by ring
  rw [annVal, hN, hI, ann_42 H r0 r1 hH h0 h1]
  simp only [annCell, cell42, azim, ddswap, one_ne_zero, OfNat.ofNat_ne_zero, if_true, if_false]
  have hsp : 0 < Real.sqrt (10 * Real.pi) := Real.sqrt_pos.2 (by positivity)
  push_cast
  rcases hs with rfl | rfl
  · field_simp
    try ring
  · field_simp
    try ring

theorem annCell_43 (dens s H r0 r1 phih : ℝ) (hs : s = 1 ∨ s = -1) (hH : 0 < H) (h0 : 0 < r0) (h1 : r0 ≤ r1) :
    annCell dens s H r0 r1 phih 4 3 = dens * annVal 4 3 s H r0 r1 phih := by
  have hr1 : 0 < r1 := lt_of_lt_of_le h0 h1
  have hd1 := dd_pos r1 H hr1
  have hd0 := dd_pos r0 H h0
  have hq1 : 0 < r1 + dd r1 H := by positivity
  have hq0 : 0 < r0 + dd r0 H := by positivity
  have hN : Real.sqrt ((2 * (4 : ℕ) + 1) * gfac 4 3 / (4 * Real.pi)) = (630) / Real.sqrt (35 * Real.pi) := by
    refine sqrt_over _ _ _ (by norm_num) (by positivity) ?_
    rw [gfac_eq 4 3 (by norm_num)]
    norm_num [Nat.factorial]
    try field_simp
    try norm_num
  have hI : annInt 4 3 H r0 r1 = ((-3360) * annInt 4 3 H r0 r1) / (-3360) := by ring
  rw [annVal, hN, hI, ann_43 H r0 r1 hH h0 h1]
  simp only [annCell, cell43, azim, ddswap, one_ne_zero, OfNat.ofNat_ne_zero, if_true, if_false]
  have hsp : 0 < Real.sqrt (35 * Real.pi) := Real.sqrt_pos.2 (by positivity)
  push_cast
  rcases hs with rfl | rfl
  · field_simp
    try ring
  · field_simp
    try ring

theorem annCell_44 (dens s H r0 r1 phih : ℝ) (hs : s = 1 ∨ s = -1) (hH : 0 < H) (h0 : 0 < r0) (h1 : r0 ≤ r1) :
    annCell dens s H r0 r1 phih 4 4 = dens * annVal 4 4 s H r0 r1 phih := by
  have hr1 : 0 < r1 := lt_of_lt_of_le h0 h1
  have hd1 := dd_pos r1 H hr1
  have hd0 := dd_pos r0 H h0
  have hq1 : 0 < r1 + dd r1 H := by positivity
  have hq0 : 0 < r0 + dd r0 H := by positivity
  have hN : Real.sqrt ((2 * (4 : ℕ) + 1) * gfac 4 4 / (4 * Real.pi)) = (2520) / Real.sqrt (70 * Real.pi) := by
    refine sqrt_over _ _ _ (by norm_num) (by positivity) ?_
    rw [gfac_eq 4 4 (by norm_num)]
    norm_num [Nat.factorial]
    try field_simp
    try norm_num
  have hI : annInt 4 4 H r0 r1 = ((40320) * annInt 4 4 H r0 r1) / (40320) := by ring
  rw [annVal, hN, hI, ann_44 H r0 r1 hH h0 h1]
  simp only [annCell, cell44, azim, ddswap, one_ne_zero, OfNat.ofNat_ne_zero, if_true, if_false]
  have hsp : 0 < Real.sqrt (70 * Real.pi) := Real.sqrt_pos.2 (by positivity)
  push_cast
  rcases hs with rfl | rfl
  · field_simp
    try ring
  · field_simp
    try ring

theorem annCell_50 (dens s H r0 r1 phih : ℝ) (hs : s = 1 ∨ s = -1) (hH : 0 < H) (h0 : 0 < r0) (h1 : r0 ≤ r1) :
    annCell dens s H r0 r1 phih 5 0 = dens * annVal 5 0 s H r0 r1 phih := by
  have hr1 : 0 < r1 := lt_of_lt_of_le h0 h1
  have hd1 := dd_pos r1 H hr1
  have hd0 := dd_pos r0 H h0
  have hq1 : 0 < r1 + dd r1 H := by positivity
  have hq0 : 0 < r0 + dd r0 H := by positivity
  have hN : Real.sqrt ((2 * (5 : ℕ) + 1) * gfac 5 0 / (4 * Real.pi)) = (60) * Real.sqrt (11 / Real.pi) := by
    refine sqrt_scale _ _ _ (by norm_num) ?_
    rw [gfac_eq 5 0 (by norm_num)]
    norm_num [Nat.factorial]
    try field_simp
    try norm_num
  have hI : annInt 5 0 H r0 r1 = ((4800) * annInt 5 0 H r0 r1) / (4800) := by ring
  rw [annVal, hN, hI, ann_50 H r0 r1 hH h0 h1]
  simp only [annCell, cell50, azim, ddswap, one_ne_zero, OfNat.ofNat_ne_zero, if_true, if_false]
  have hsp : 0 < Real.sqrt (11 / Real.pi) := Real.sqrt_pos.2 (by positivity)
  push_cast
  rcases hs with rfl | rfl
  · field_simp
    try ring
  · field_simp
    try ring

theorem annCell_51 (dens s H r0 r1 phih : ℝ) (hs : s = 1 ∨ s = -1) (hH : 0 < H) (h0 : 0 < r0) (h1 : r0 ≤ r1) :
    annCell dens s H r0 r1 phih 5 1 = dens * annVal 5 1 s H r0 r1 phih := by
  have hr1 : 0 < r1 := lt_of_lt_of_le h0 h1
  have hd1 := dd_pos r1 H hr1
  have hd0 := dd_pos r0 H h0
  have hq1 : 0 < r1 + dd r1 H := by positivity
  have hq0 : 0 < r0 + dd r0 H := by positivity
  have hN : Real.sqrt ((2 * (5 : ℕ) + 1) * gfac 5 1 / (4 * Real.pi)) = (360) * Real.sqrt (11 / (30 * Real.pi)) := by
    refine sqrt_scale _ _ _ (by norm_num) ?_
    rw [gfac_eq 5 1 (by norm_num)]
    norm_num [Nat.factorial]
    try field_simp
    try norm_num
  have hI : annInt 5 1 H r0 r1 = ((-17280) * annInt 5 1 H r0 r1) / (-17280) := by ring
  rw [annVal, hN, hI, ann_51 H r0 r1 hH h0 h1]
  simp only [annCell, cell51, azim, ddswap, one_ne_zero, OfNat.ofNat_ne_zero, if_true, if_false]
  have hsp : 0 < Real.sqrt (11 / (30 * Real.pi)) := Real.sqrt_pos.2 (by positivity)
  push_cast
  rcases hs with rfl | rfl
  · field_simp
    try ring
  · field_simp
    try ring

theorem annCell_52 (dens s H r0 r1 phih : ℝ) (hs : s = 1 ∨ s = -1) (hH : 0 < H) (h0 : 0 < r0) (h1 : r0 ≤ r1) :
    annCell dens s H r0 r1 phih 5 2 = dens * annVal 5 2 s H r0 r1 phih := by
  have hr1 : 0 < r1 := lt_of_lt_of_le h0 h1
  have hd1 := dd_pos r1 H hr1
  have hd0 := dd_pos r0 H h0
  have hq1 : 0 < r1 + dd r1 H := by positivity
  have hq0 : 0 < r0 + dd r0 H := by positivity
  have hN : Real.sqrt ((2 * (5 : ℕ) + 1) * gfac 5 2 / (4 * Real.pi)) = (1260) * Real.sqrt (11 / (210 * Real.pi)) := by
    refine sqrt_scale _ _ _ (by norm_num) ?_
    rw [gfac_eq 5 2 (by norm_num)]
    norm_num [Nat.factorial]
    try field_simp
    try norm_num
  have hI : annInt 5 2 H r0 r1 = ((30240) * annInt 5 2 H r0 r1) / (30240) := by ring
  rw [annVal, hN, hI, ann_52 H r0 r1 hH h0 h1]
  simp only [annCell, cell52, azim, ddswap, one_ne_zero, OfNat.ofNat_ne_zero, if_true, if_false]
  have hsp : 0 < Real.sqrt (11 / (210 * Real.pi)) := Real.sqrt_pos.2 (by positivity)
  push_cast
  rcases hs with rfl | rfl
  · field_simp
    try ring
  · field_simp
    try ring

theorem annCell_53 (dens s H r0 r1 phih : ℝ) (hs : s = 1 ∨ s = -1) (hH : 0 < H) (h0 : 0 < r0) (h1 : r0 ≤ r1) :
    annCell dens s H r0 r1 phih 5 3 = dens * annVal 5 3 s H r0 r1 phih
      - dens * Real.sqrt (11 / (35 * Real.pi)) / (16 * H ^ 3) * (r1 ^ 7 / dd r1 H ^ 7 - r0 ^ 7 / dd r0 H ^ 7)
        * Real.sin (3 * phih) / 3 := by
  have hr1 : 0 < r1 := lt_of_lt_of_le h0 h1
  have hd1 := dd_pos r1 H hr1
  have hd0 := dd_pos r0 H h0
  have hq1 : 0 < r1 + dd r1 H := by positivity
  have hq0 : 0 < r0 + dd r0 H := by positivity
  have hN : Real.sqrt ((2 * (5 : ℕ) + 1) * gfac 5 3 / (4 * Real.pi)) = (840) * Real.sqrt (11 / (35 * Real.pi)) := by
    refine sqrt_scale _ _ _ (by norm_num) ?_
    rw [gfac_eq 5 3 (by norm_num)]
    norm_num [Nat.factorial]
    try field_simp
    try norm_num
  have hI : annInt 5 3 H r0 r1 = ((-26880) * annInt 5 3 H r0 r1) / (-26880) := by ring
  rw [annVal, hN, hI, ann_53 H r0 r1 hH h0 h1]
  simp only [annCell, cell53, azim, ddswap, one_ne_zero, OfNat.ofNat_ne_zero, if_true, if_false]
  have hsp : 0 < Real.sqrt (11 / (35 * Real.pi)) := Real.sqrt_pos.2 (by positivity)
  push_cast
  rcases hs with rfl | rfl
  · field_simp
    try ring
  · field_simp
    try ring

theorem annCell_54 (dens s H r0 r1 phih : ℝ) (hs : s = 1 ∨ s = -1) (hH : 0 < H) (h0 : 0 < r0) (h1 : r0 ≤ r1) :
    annCell dens s H r0 r1 phih 5 4 = dens * annVal 5 4 s H r0 r1 phih := by
  have hr1 : 0 < r1 := lt_of_lt_of_le h0 h1
  have hd1 := dd_pos r1 H hr1
  have hd0 := dd_pos r0 H h0
  have hq1 : 0 < r1 + dd r1 H := by positivity
  have hq0 : 0 < r0 + dd r0 H := by positivity
  have hN : Real.sqrt ((2 * (5 : ℕ) + 1) * gfac 5 4 / (4 * Real.pi)) = (2520) * Real.sqrt (11 / (70 * Real.pi)) := by
    refine sqrt_scale _ _ _ (by norm_num) ?_
    rw [gfac_eq 5 4 (by norm_num)]
    norm_num [Nat.factorial]
    try field_simp
    try norm_num
  have hI : annInt 5 4 H r0 r1 = ((362880) * annInt 5 4 H r0 r1) / (362880) := by ring
  rw [annVal, hN, hI, ann_54 H r0 r1 hH h0 h1]
  simp only [annCell, cell54, azim, ddswap, one_ne_zero, OfNat.ofNat_ne_zero, if_true, if_false]
  have hsp : 0 < Real.sqrt (11 / (70 * Real.pi)) := Real.sqrt_pos.2 (by positivity)
  push_cast
  rcases hs with rfl | rfl
  · field_simp
    try ring
  · field_simp
    try ring

theorem annCell_55 (dens s H r0 r1 phih : ℝ) (hs : s = 1 ∨ s = -1) (hH : 0 < H) (h0 : 0 < r0) (h1 : r0 ≤ r1) :
    annCell dens s H r0 r1 phih 5 5 = dens * annVal 5 5 s H r0 r1 phih := by
  have hr1 : 0 < r1 := lt_of_lt_of_le h0 h1
  have hd1 := dd_pos r1 H hr1
  have hd0 := dd_pos r0 H h0
  have hq1 : 0 < r1 + dd r1 H := by positivity
  have hq0 : 0 < r0 + dd r0 H := by positivity
  have hN : Real.sqrt ((2 * (5 : ℕ) + 1) * gfac 5 5 / (4 * Real.pi)) = (2520) * Real.sqrt (11 / (7 * Real.pi)) := by
    refine sqrt_scale _ _ _ (by norm_num) ?_
    rw [gfac_eq 5 5 (by norm_num)]
    norm_num [Nat.factorial]
    try field_simp
    try norm_num
  have hI : annInt 5 5 H r0 r1 = ((-3628800) * annInt 5 5 H r0 r1) / (-3628800) := by ring
  rw [annVal, hN, hI, ann_55 H r0 r1 hH h0 h1]
  simp only [annCell, cell55, azim, ddswap, one_ne_zero, OfNat.ofNat_ne_zero, if_true, if_false]
  have hsp : 0 < Real.sqrt (11 / (7 * Real.pi)) := Real.sqrt_pos.2 (by positivity)
  push_cast
  rcases hs with rfl | rfl
  · field_simp
    try ring
  · field_simp
    try ring

end Newt
